import Verif.Lemmas.Failure

/-!
# How often a program fails

C80: if the provider splits its tuples at random, the result of a program deviates from the exact one by more than the bound of `Spec/Program.lean` only with the probability given by `risk`.
-/

namespace CrypTen.Failure
open CrypTen.Program CrypTen.Privacy
variable {n : ℕ} {sh : ℕ → Type} {ι ι' κ : Type} {Ω : Type} {k : ℕ}

/-! ## What is divided -/

theorem abs_toInt_le {a : I64} {z : ℤ} {q X : ℚ} (ha : a = BitVec.ofInt 64 z) (hz : (z : ℚ) = q) (hq : |q| ≤ X) (hX : X < 2 ^ 63) : |(a.toInt : ℚ)| ≤ X := by
  rw [toInt_of_fits ha (by rw [hz]; exact fits_of_abs hq hX), hz]; exact hq

theorem mul_magnitude [NeZero n] (B : BilinearOp ι ι' κ) {x : AST n ι} {y : AST n ι'} {v : ι → ℚ} {w : ι' → ℚ} {e f A C : ℚ} {L : ℕ} (hL : ∀ j, (B j).length ≤ L) (he : 0 ≤ e) (hf : 0 ≤ f) (hA : 0 ≤ A) (hC : 0 ≤ C)
    (hx : Near k x v e) (hy : Near k y w f) (hv : ∀ i, |v i| ≤ A) (hw : ∀ i, |w i| ≤ C) (hfit : 2 ^ k * 2 ^ k * (L * ((A + e) * (C + f))) < 2 ^ 63) (s : Shares n κ)
    (hs : reveal s = B.apply (reveal x.share) (reveal y.share)) (j : κ) : |((reveal s j).toInt : ℚ)| ≤ 2 ^ k * 2 ^ k * (L * ((A + e) * (C + f))) := by
  have hx0 : 0 < x.scale := by rw [hx.1]; exact Nat.two_pow_pos k
  have hy0 : 0 < y.scale := by rw [hy.1]; exact Nat.two_pow_pos k
  refine abs_toInt_le (by rw [hs, apply_ofInt]) (bilinearZ_value B _ _ x.value y.value _ _ (fun i => word_eq_value hx0 i) (fun i => word_eq_value hy0 i) j) ?_ hfit
  rw [hx.scaleQ, hy.scaleQ, abs_mul, abs_of_pos (a := (2 : ℚ) ^ k * 2 ^ k) (by positivity)]
  exact mul_le_mul_of_nonneg_left (bilinearQ_abs_le B j (hL j) (by positivity) (by positivity) (fun i => hx.abs_le (hv i)) fun i => hy.abs_le (hw i)) (by positivity)

theorem mulPub_magnitude [NeZero n] (B : BilinearOp ι ι' κ) {x : AST n ι} {v : ι → ℚ} (y : ι' → ℚ) {e A C : ℚ} {L : ℕ} (hL : ∀ j, (B j).length ≤ L) (he : 0 ≤ e) (hA : 0 ≤ A) (hC : 0 ≤ C)
    (hx : Near k x v e) (hv : ∀ i, |v i| ≤ A) (hy : ∀ i, |y i| ≤ C) (hfity : 2 ^ k * C < 2 ^ 63) (hfit : 2 ^ k * 2 ^ k * (L * ((A + e) * (C + 1 / 2 ^ k))) < 2 ^ 63) (j : κ) :
    |((reveal (bilinearPublic B x.share (encodePublic x.scale y)) j).toInt : ℚ)| ≤ 2 ^ k * 2 ^ k * (L * ((A + e) * (C + 1 / 2 ^ k))) := by
  have hx0 : 0 < x.scale := by rw [hx.1]; exact Nat.two_pow_pos k
  have hb : ∀ i, |(truncQ (x.scale * y i) : ℚ) / x.scale - y i| ≤ 1 / 2 ^ k := fun i => by rw [hx.scaleQ]; exact trunc_any k (y i)
  have hb' : ∀ i, |(truncQ (x.scale * y i) : ℚ) / x.scale| ≤ C + 1 / 2 ^ k := fun i => by
    have := abs_add_le ((truncQ (x.scale * y i) : ℚ) / x.scale - y i) (y i)
    rw [sub_add_cancel] at this
    linarith [hb i, hy i]
  have hy' : ∀ i, |(x.scale : ℚ) * y i| < 2 ^ 63 := fun i => by
    rw [hx.scaleQ, abs_mul, abs_of_pos (a := (2 : ℚ) ^ k) (by positivity)]
    exact lt_of_le_of_lt (mul_le_mul_of_nonneg_left (hy i) (by positivity)) hfity
  have hval := bilinearZ_value B (fun i => (reveal x.share i).toInt) (fun i => (encodePublic x.scale y i).toInt) x.value
    (fun i => (truncQ (x.scale * y i) : ℚ) / x.scale) x.scale x.scale (fun i => word_eq_value hx0 i) (fun i => by
      have := truncQ_range (hy' i)
      have hP : (x.scale : ℚ) ≠ 0 := by exact_mod_cast hx0.ne'
      rw [encodePublic_ofInt, toInt_ofInt64 this.1 this.2]; field_simp) j
  refine abs_toInt_le (by rw [reveal_bilinearPublic, apply_ofInt]) hval ?_ hfit
  rw [abs_mul, show |(x.scale : ℚ) * x.scale| = 2 ^ k * 2 ^ k by rw [hx.scaleQ, abs_of_pos (by positivity)]]
  exact mul_le_mul_of_nonneg_left (bilinearQ_abs_le B j (hL j) (by positivity) (by positivity) (fun i => hx.abs_le (hv i)) hb') (by positivity)

theorem square_magnitude [NeZero n] {x : AST n ι} {v : ι → ℚ} {e A : ℚ} (hx : Near k x v e) (hv : ∀ i, |v i| ≤ A) (hfit : 2 ^ k * 2 ^ k * (A + e) ^ 2 < 2 ^ 63) (s : Shares n ι)
    (hs : ∀ i, reveal s i = reveal x.share i * reveal x.share i) (j : ι) : |((reveal s j).toInt : ℚ)| ≤ 2 ^ k * 2 ^ k * (A + e) ^ 2 := by
  have hx0 : 0 < x.scale := by rw [hx.1]; exact Nat.two_pow_pos k
  refine abs_toInt_le (z := (reveal x.share j).toInt * (reveal x.share j).toInt) (q := x.scale * x.scale * (x.value j * x.value j)) (by rw [hs, ofInt_mul64, ofInt_toInt]) ?_ ?_ hfit
  · rw [Int.cast_mul, word_eq_value hx0]; ring
  · rw [hx.scaleQ, abs_mul, abs_of_pos (a := (2 : ℚ) ^ k * 2 ^ k) (by positivity), abs_mul, sq]
    have := hx.abs_le (hv j)
    exact mul_le_mul_of_nonneg_left (mul_le_mul this this (abs_nonneg _) ((abs_nonneg _).trans this)) (by positivity)

theorem word_magnitude {x : AST n ι} {v : ι → ℚ} {e A : ℚ} (hx : Near k x v e) (hv : ∀ i, |v i| ≤ A) (j : ι) : |((reveal x.share j).toInt : ℚ)| ≤ 2 ^ k * (A + e) := by
  have hx0 : 0 < x.scale := by rw [hx.1]; exact Nat.two_pow_pos k
  rw [word_eq_value hx0, hx.scaleQ, abs_mul, abs_of_pos (a := (2 : ℚ) ^ k) (by positivity)]
  exact mul_le_mul_of_nonneg_left (hx.abs_le (hv j)) (by positivity)

/-! ## One line -/

theorem good_of_none [NeZero n] (hk : k ≤ 62) {d : ℕ} (op : Op n sh d) (c : Info) {R : Regs n sh} {V : Nums sh} {M E : ℕ → ℚ} (hV : Bounded V M) (h : Holds k R V E)
    (hs : op.Safe k M E c) (hn : Op.divided k M E c op = none) (T : Tuples n) (hT : T.Valid) (ctr : ℕ) : (op.run k R T ctr).good := by
  have N : ∀ r, Near k (R r) (V r) (E r) := h
  have hadd : ∀ {ι : Type} {x y : AST n ι}, x.scale = y.scale → (x.add y T ctr).good := by
    intro ι x y hxy; unfold AST.add; rw [if_neg (by omega), if_neg (by omega)]; trivial
  have hsub : ∀ {ι : Type} {x y : AST n ι}, x.scale = y.scale → (x.sub y T ctr).good := by
    intro ι x y hxy; unfold AST.sub; rw [if_neg (by omega), if_neg (by omega)]; trivial
  cases op with
  | input src x => exact ⟨trivial, trivial⟩
  | add a b f g => exact hadd ((N a).1.trans (N b).1.symm)
  | sub a b f g => exact hsub ((N a).1.trans (N b).1.symm)
  | neg a f => trivial
  | addPub a f y => trivial
  | mulInt a f z => trivial
  | mul a b B => exact (nomatch hn)
  | mulPub a m B y => exact (nomatch hn)
  | square a f => exact (nomatch hn)
  | divInt a f z => exact (nomatch hn)
  | reindex a f => trivial
  | sum a m f => trivial
  | relu a f =>
    have h1 := near_relu ((N a).reindex f) T hT ctr
    exact h1.1
  | max a m f method =>
    have hs' : 0 < m ∧ 2 ^ k * m < 2 ^ 63 ∧ (2 : ℚ) ^ k * (2 * (M a + E a)) < 2 ^ 63 := hs
    have h1 := near_max hk hs'.1 hs'.2.1 method ((N a).reindex f) (fun i => hV a _) hs'.2.2 T hT ctr
    exact h1.1

/-- Registers and counter that are decided by what was handed out before. -/
structure Adapted (T : Ω → Tuples n) (A : Finset Ω) (R : Ω → Regs n sh) (c : Ω → ℕ) : Prop where
  mem : ∀ ω ω', SameBefore (c ω) (T ω) (T ω') → ω ∈ A → ω' ∈ A
  regs : ∀ ω ω', SameBefore (c ω) (T ω) (T ω') → ω ∈ A → R ω' = R ω
  ctr : ∀ ω ω', SameBefore (c ω) (T ω) (T ω') → ω ∈ A → c ω' = c ω

theorem count_le_card (A : Finset Ω) (b : Ω → Prop) : count A b ≤ A.card := by
  rw [count_eq]; exact_mod_cast Finset.card_le_card fun ω hω => (mem_sub.1 hω).1

theorem count_zero {A : Finset Ω} {b : Ω → Prop} (h : ∀ ω ∈ A, ¬ b ω) : count A b = 0 := by
  rw [count_eq, Nat.cast_eq_zero, Finset.card_eq_zero, Finset.eq_empty_iff_forall_notMem]
  intro ω hω
  rw [mem_sub] at hω
  exact h ω hω.1 hω.2

theorem le_risk {A : Finset Ω} {b : Ω → Prop} {m X : ℚ} {p : ℕ} (h : count A b * words ≤ m * (X + 2 * p) * A.card) : count A b ≤ m * ((X + 2 * p) / (2 ^ 64 - 1)) * A.card := by
  rw [← words_def]
  have : count A b ≤ m * (X + 2 * p) * A.card / words := (le_div_iff₀ words_pos).2 h
  exact this.trans (le_of_eq (by ring))

/-- Any number of parties except two. -/
theorem card_div_ne_two [NeZero n] [Fintype ι] (hn : n ≠ 2) {T : Ω → Tuples n} {c : ℕ} (A : Finset Ω) (hA : ∀ ω ω', SameBefore c (T ω) (T ω') → ω ∈ A → ω' ∈ A) (x : Ω → Shares n ι)
    (hx : ∀ ω ω', SameBefore c (T ω) (T ω') → x ω = x ω') {X : ℚ} (hX : ∀ ω ∈ A, ∀ i, |((reveal (x ω) i).toInt : ℚ)| ≤ X)
    (h : ∀ p i, Spread T c (fun ω (q : {q : Fin n // q ≠ p}) => ((T ω).wrap c ι).r q.1) fun ω => ((T ω).wrap c ι).r p i) :
    count A (fun ω => ¬ ∀ i, DivGood ((T ω).wrap c ι) (x ω) i) * words ≤ Fintype.card ι * (X + 2 * n) * A.card := by
  by_cases h2 : n > 2
  · exact card_div_many h2 A (fun ω ω' hs _ hm => hA ω ω' hs hm) x (fun ω ω' hs _ => hx ω ω' hs) hX h
  · have h1 : n = 1 := by have := Nat.pos_of_neZero n; omega
    subst h1
    have hg : ∀ ω ∈ A, ¬ ¬ ∀ i, DivGood ((T ω).wrap c ι) (x ω) i := fun ω _ hb => hb fun i => divGood_one _ _ i
    rw [count_zero hg, zero_mul]
    rcases A.eq_empty_or_nonempty with rfl | ⟨ω, hω⟩
    · simp
    · by_cases hi : IsEmpty ι
      · simp
      · obtain ⟨i⟩ := not_isEmpty_iff.1 hi
        have : 0 ≤ X := (abs_nonneg _).trans (hX ω hω i)
        positivity

/-- The risk of one line, for fixed registers and counter. -/
theorem line_fixed [NeZero n] [∀ d, Fintype (sh d)] (hk0 : 0 < k) (hk : k ≤ 62) {N : ℕ} {prog : Prog n sh} {T : Ω → Tuples n} (hT : RandomSplit N prog T) (hp : n ≠ 2 ∨ NoPublic prog)
    {d : ℕ} {op : Op n sh d} (hop : ⟨d, op⟩ ∈ prog) (i : Info) {V : Nums sh} {M E : ℕ → ℚ} (hM : ∀ r, 0 ≤ M r) (hE : ∀ r, 0 ≤ E r) (hV : Bounded V M) (hs : op.Safe k M E i)
    (A : Finset Ω) (R : Regs n sh) (c : ℕ) (hA : ∀ ω ω', SameBefore c (T ω) (T ω') → ω ∈ A → ω' ∈ A) (h : Holds k R V E) (hN : ∀ ω ∈ A, (op.run k R (T ω) c).ctr ≤ N) :
    count A (fun ω => ¬ (op.run k R (T ω) c).good) ≤ Op.risk k M E i op * A.card := by
  rcases A.eq_empty_or_nonempty with rfl | ⟨ω₀, hω₀⟩
  · rw [count_zero (by simp)]; simp
  have NR : ∀ r, Near k (R r) (V r) (E r) := h
  have hsc : ∀ r, 1 < (R r).scale := fun r => by rw [(NR r).1]; exact Nat.one_lt_two_pow hk0.ne'
  by_cases hnone : Op.divided k M E i op = none
  · rw [count_zero fun ω _ hb => hb (good_of_none hk op i hV h hs hnone (T ω) (hT.valid ω) c), Op.risk, hnone]
    simp
  cases op with
  | mul a b B =>
    have hmag : ∀ ω j, |((reveal (beaverProduct B ((T ω).mul c B) (R a).share (R b).share) j).toInt : ℚ)| ≤ 2 ^ k * 2 ^ k * (i.terms * ((M a + E a) * (M b + E b))) := fun ω j =>
      mul_magnitude B hs.1 (hE a) (hE b) (hM a) (hM b) (NR a) (NR b) (hV a) (hV b) hs.2 _ (C09_beaver_product B _ ((hT.valid ω).mul c B) _ _) j
    have hgood : ∀ ω, ¬ (Op.run k R (.mul a b B : Op n sh d) (T ω) c).good → ¬ ∀ i, DivGood ((T ω).wrap (c + 1) (sh d)) (beaverProduct B ((T ω).mul c B) (R a).share (R b).share) i := by
      intro ω hb hg
      refine hb ⟨trivial, ?_⟩
      show Run.good ((if _ then _ else _ : Proto n _) (T ω) _)
      rw [if_pos ⟨hsc a, hsc b⟩]
      exact ⟨hg, trivial⟩
    have hctr : c + 1 < N := by
      have h1 := hN ω₀ hω₀
      have h2 : (Op.run k R (.mul a b B : Op n sh d) (T ω₀) c).ctr = c + 2 := by
        show Run.ctr ((if _ then _ else _ : Proto n _) (T ω₀) _) = _
        rw [if_pos ⟨hsc a, hsc b⟩]; rfl
      omega
    refine (count_mono A fun ω _ hb => hgood ω hb).trans (le_risk ?_)
    by_cases h2 : n = 2
    · subst h2
      exact card_div_two (c := c) (u := fun ω => (((T ω).mul c B).a, ((T ω).mul c B).b)) A (fun ω ω' hs _ hm => hA ω ω' hs hm) _ _
        (fun ω j => B.apply (beaverOpen ((T ω).mul c B) (R a).share (R b).share).1 (((T ω).mul c B).b 0) j + B.apply (((T ω).mul c B).a 0) (beaverOpen ((T ω).mul c B) (R a).share (R b).share).2 j
          + B.apply (beaverOpen ((T ω).mul c B) (R a).share (R b).share).1 (beaverOpen ((T ω).mul c B) (R a).share (R b).share).2 j)
        (fun ω j => ((T ω).mul c B).c 0 j)
        (fun ω j => by
          simp only [beaverProduct, addPublic, if_pos, Pi.add_apply]
          simp only [add_assoc])
        (fun ω ω' _ he _ => by
          have e1 : ((T ω).mul c B).a = ((T ω').mul c B).a := congrArg Prod.fst he
          have e2 : ((T ω).mul c B).b = ((T ω').mul c B).b := congrArg Prod.snd he
          simp only [beaverOpen, e1, e2])
        (fun ω ω' _ _ => by rw [C09_beaver_product B _ ((hT.valid ω).mul c B), C09_beaver_product B _ ((hT.valid ω').mul c B)])
        (fun ω _ j => hmag ω j) (fun j => hT.mul (by omega) c (by omega) d a b B hop 0 j)
    · exact card_div_ne_two h2 A (fun ω ω' hs hm => hA ω ω' (hs.mono (Nat.le_succ c)) hm) _
        (fun ω ω' hs => by rw [hs.mul c (Nat.lt_succ_self c) B]) (fun ω _ j => hmag ω j) (hT.wrap (c + 1) hctr d _ hop)
  | mulPub a m B y =>
    have h2 : n ≠ 2 := by
      rcases hp with h2 | hp
      · exact h2
      · exact absurd rfl ((hp _ hop d).1 a m B y)
    have hmag := mulPub_magnitude B y hs.1 (hE a) (hM a) hs.2.1 (NR a) (hV a) hs.2.2.1 hs.2.2.2.1 hs.2.2.2.2
    have hgood : ∀ ω, ¬ (Op.run k R (.mulPub a m B y : Op n sh d) (T ω) c).good → ¬ ∀ i, DivGood ((T ω).wrap c (sh d)) (bilinearPublic B (R a).share (encodePublic (R a).scale y)) i := by
      intro ω hb hg
      refine hb ?_
      show Run.good ((if _ then _ else _ : Proto n _) (T ω) _)
      rw [if_pos (hsc a)]
      exact ⟨hg, trivial⟩
    have hctr : c < N := by
      have h1 := hN ω₀ hω₀
      have h2 : (Op.run k R (.mulPub a m B y : Op n sh d) (T ω₀) c).ctr = c + 1 := by
        show Run.ctr ((if _ then _ else _ : Proto n _) (T ω₀) _) = _
        rw [if_pos (hsc a)]; rfl
      omega
    refine (count_mono A fun ω _ hb => hgood ω hb).trans (le_risk ?_)
    exact card_div_ne_two h2 A hA _ (fun ω ω' hs => rfl) (fun ω _ j => hmag j) (hT.wrap c hctr d _ hop)
  | square a f =>
    have NF := (NR a).reindex f
    have hmag : ∀ ω j, |((reveal (beaverSquare ((T ω).square c (sh d)) ((R a).reindex f).share) j).toInt : ℚ)| ≤ 2 ^ k * 2 ^ k * (M a + E a) ^ 2 := fun ω j =>
      square_magnitude NF (fun j => hV a _) hs _ (fun j => C10_beaver_square _ ((hT.valid ω).square c (sh d)) _ j) j
    have hgood : ∀ ω, ¬ (Op.run k R (.square a f : Op n sh d) (T ω) c).good → ¬ ∀ i, DivGood ((T ω).wrap (c + 1) (sh d)) (beaverSquare ((T ω).square c (sh d)) ((R a).reindex f).share) i :=
      fun ω hb hg => hb ⟨trivial, hg, trivial⟩
    have hctr : c + 1 < N := hN ω₀ hω₀
    refine (count_mono A fun ω _ hb => hgood ω hb).trans (le_risk ?_)
    by_cases h2 : n = 2
    · subst h2
      exact card_div_two (c := c) (u := fun ω => ((T ω).square c (sh d)).r) A (fun ω ω' hs _ hm => hA ω ω' hs hm) _ _
        (fun ω j => mulInt (mulInt ((T ω).square c (sh d)).r (fun _ => 2)) (squareOpen ((T ω).square c (sh d)) ((R a).reindex f).share) 0 j
          + (squareOpen ((T ω).square c (sh d)) ((R a).reindex f).share * squareOpen ((T ω).square c (sh d)) ((R a).reindex f).share) j)
        (fun ω j => ((T ω).square c (sh d)).r2 0 j)
        (fun ω j => by
          simp only [beaverSquare, addPublic, if_pos, addShares, Pi.add_apply]
          simp only [add_assoc])
        (fun ω ω' _ he _ => by
          have e1 : ((T ω).square c (sh d)).r = ((T ω').square c (sh d)).r := he
          simp only [squareOpen, e1])
        (fun ω ω' _ _ => by
          funext j
          rw [C10_beaver_square _ ((hT.valid ω).square c (sh d)), C10_beaver_square _ ((hT.valid ω').square c (sh d))])
        (fun ω _ j => hmag ω j) (fun j => hT.square (by omega) c (by omega) d a f hop 0 j)
    · exact card_div_ne_two h2 A (fun ω ω' hs hm => hA ω ω' (hs.mono (Nat.le_succ c)) hm) _
        (fun ω ω' hs => by rw [hs.square c (Nat.lt_succ_self c)]) (fun ω _ j => hmag ω j) (hT.wrap (c + 1) hctr d _ hop)
  | divInt a f z =>
    have h2 : n ≠ 2 := by
      rcases hp with h2 | hp
      · exact h2
      · exact absurd rfl ((hp _ hop d).2 a f z)
    have hmag := word_magnitude ((NR a).reindex f) (fun j => hV a _)
    have hgood : ∀ ω, ¬ (Op.run k R (.divInt a f z : Op n sh d) (T ω) c).good → ¬ ∀ i, DivGood ((T ω).wrap c (sh d)) ((R a).reindex f).share i :=
      fun ω hb hg => hb ⟨hg, trivial⟩
    have hctr : c < N := hN ω₀ hω₀
    refine (count_mono A fun ω _ hb => hgood ω hb).trans (le_risk ?_)
    exact card_div_ne_two h2 A hA _ (fun ω ω' hs => rfl) (fun ω _ j => hmag j) (hT.wrap c hctr d _ hop)
  | _ => exact absurd rfl hnone

/-- The risk of one line. -/
theorem line_adapted [NeZero n] [∀ d, Fintype (sh d)] (hk0 : 0 < k) (hk : k ≤ 62) {N : ℕ} {prog : Prog n sh} {T : Ω → Tuples n} (hT : RandomSplit N prog T) (hp : n ≠ 2 ∨ NoPublic prog)
    {d : ℕ} {op : Op n sh d} (hop : ⟨d, op⟩ ∈ prog) (i : Info) {V : Nums sh} {M E : ℕ → ℚ} (hM : ∀ r, 0 ≤ M r) (hE : ∀ r, 0 ≤ E r) (hV : Bounded V M) (hs : op.Safe k M E i)
    (A : Finset Ω) (R : Ω → Regs n sh) (c : Ω → ℕ) (hA : Adapted T A R c) (h : ∀ ω ∈ A, Holds k (R ω) V E) (hN : ∀ ω ∈ A, (op.run k (R ω) (T ω) (c ω)).ctr ≤ N) :
    count A (fun ω => ¬ (op.run k (R ω) (T ω) (c ω)).good) ≤ Op.risk k M E i op * A.card := by
  have h1 := card_classes A (fun ω ω' => SameBefore (c ω) (T ω) (T ω') ∧ c ω = c ω')
    ⟨fun ω => ⟨.refl _ _, rfl⟩, fun {ω ω'} h => ⟨h.2 ▸ h.1.symm, h.2.symm⟩, fun {ω ω' ω''} h g => ⟨h.1.trans (h.2 ▸ g.1), h.2.trans g.2⟩⟩
    (fun ω => ¬ (op.run k (R ω) (T ω) (c ω)).good) (Op.risk k M E i op) 1 fun ω hω => ?_
  · rwa [mul_one] at h1
  have h2 := line_fixed hk0 hk hT hp hop i hM hE hV hs (sub A fun ω' => SameBefore (c ω) (T ω) (T ω') ∧ c ω = c ω') (R ω) (c ω)
    (fun ω₁ ω₂ hs hm => by
      rw [mem_sub] at hm ⊢
      exact ⟨hA.mem ω₁ ω₂ (hm.2.2 ▸ hs) hm.1, hm.2.1.trans hs, (hA.ctr ω ω₂ (hm.2.1.trans hs) hω).symm⟩) (h ω hω)
    (fun ω' hm => by
      rw [mem_sub] at hm
      have := hN ω' hm.1
      rwa [hA.regs ω ω' hm.2.1 hω, ← hm.2.2] at this)
  rw [count_sub, ← count_eq] at h2
  rw [mul_one]
  refine le_trans (le_of_eq ?_) h2
  refine count_congr fun ω' => and_congr_right fun hm => and_congr_right fun hr => ?_
  rw [hA.regs ω ω' hr.1 hω, ← hr.2]

theorem risk_nonneg_op [∀ d, Fintype (sh d)] {d : ℕ} (op : Op n sh d) (i : Info) {M E : ℕ → ℚ} (hM : ∀ r, 0 ≤ M r) (hE : ∀ r, 0 ≤ E r) (hs : op.Safe k M E i) : 0 ≤ Op.risk k M E i op := by
  have hD : (0 : ℚ) ≤ 2 ^ 64 - 1 := by norm_num
  have key : ∀ X : ℚ, 0 ≤ X → 0 ≤ (Fintype.card (sh d) : ℚ) * ((X + 2 * n) / (2 ^ 64 - 1)) := fun X hX => mul_nonneg (Nat.cast_nonneg _) (div_nonneg (by positivity) hD)
  cases op with
  | mul a b B => have := hM a; have := hM b; have := hE a; have := hE b; exact key _ (by positivity)
  | mulPub a m B y => have := hM a; have := hE a; have := hs.2.1; exact key _ (by positivity)
  | square a f => exact key _ (by positivity)
  | divInt a f z => have := hM a; have := hE a; exact key _ (by positivity)
  | _ => exact le_refl _

theorem risk_nonneg [∀ d, Fintype (sh d)] (prog : Prog n sh) (cs : List Info) {M E : ℕ → ℚ} (hM : ∀ r, 0 ≤ M r) (hE : ∀ r, 0 ≤ E r) (hs : Safe k M cs prog E) : 0 ≤ risk k M cs prog E := by
  induction prog generalizing cs E with
  | nil => cases cs <;> exact le_refl _
  | cons l rest ih =>
    obtain ⟨d, op⟩ := l
    cases cs with
    | nil => exact le_refl _
    | cons i cs =>
      refine add_nonneg (risk_nonneg_op op i hM hE hs.1) (ih cs (fun r => ?_) hs.2)
      by_cases hr : r = d
      · subst hr; rw [Function.update_self]; exact err_nonneg op i hM hE hs.1
      · rw [Function.update_of_ne hr]; exact hE r

theorem program_adapted [NeZero n] [∀ d, Fintype (sh d)] (hn : n < 2 ^ 60) (hk0 : 0 < k) (hk : k ≤ 62) {N : ℕ} {whole : Prog n sh} {T : Ω → Tuples n} (hT : RandomSplit N whole T) (hp : n ≠ 2 ∨ NoPublic whole)
    (prog : Prog n sh) (hsub : ∀ l ∈ prog, l ∈ whole) (cs : List Info) {V : Nums sh} {M E : ℕ → ℚ} (hM : ∀ r, 0 ≤ M r) (hE : ∀ r, 0 ≤ E r) (hV : Bounded V M) (hw : Within M prog V) (hs : Safe k M cs prog E)
    (A : Finset Ω) (R : Ω → Regs n sh) (c : Ω → ℕ) (hA : Adapted T A R c) (h : ∀ ω ∈ A, Holds k (R ω) V E) (hN : ∀ ω ∈ A, (run k prog (R ω) (T ω) (c ω)).ctr ≤ N) :
    count A (fun ω => ¬ (run k prog (R ω) (T ω) (c ω)).good) ≤ risk k M cs prog E * A.card := by
  induction prog generalizing cs V E A R c with
  | nil =>
    rw [count_zero fun ω _ hb => hb trivial]
    cases cs <;> simp [risk]
  | cons l rest ih =>
    obtain ⟨d, op⟩ := l
    cases cs with
    | nil => exact hs.elim
    | cons i cs =>
      have hN1 : ∀ ω ∈ A, (op.run k (R ω) (T ω) (c ω)).ctr ≤ N := fun ω hω => (run_ctr k rest (hT.valid ω) _).trans (hN ω hω)
      have hE' : ∀ r, 0 ≤ Function.update E d (op.err n k M E i) r := fun r => by
        by_cases hr : r = d
        · subst hr; rw [Function.update_self]; exact err_nonneg op i hM hE hs.1
        · rw [Function.update_of_ne hr]; exact hE r
      have hV' : Bounded (set (α := fun ι => ι → ℚ) V d (op.exact V)) M := fun r j => by
        by_cases hr : r = d
        · subst hr; rw [set_self]; exact hw.1 j
        · rw [set_ne _ _ hr]; exact hV r j
      have h1 := line_adapted hk0 hk hT hp (hsub _ (by simp)) i hM hE hV hs.1 A R c hA h hN1
      have hsame : ∀ ω ω', SameBefore (op.run k (R ω) (T ω) (c ω)).ctr (T ω) (T ω') → ω ∈ A → op.run k (R ω') (T ω') (c ω') = op.run k (R ω) (T ω) (c ω) := fun ω ω' hs hm => by
        have hs' := hs.mono (op_ctr k op (hT.valid ω) (c ω))
        rw [hA.regs ω ω' hs' hm, hA.ctr ω ω' hs' hm]
        exact op_local k op (hT.valid ω) (c ω) hs
      have h2 := ih (fun l hl => hsub l (by simp [hl])) cs hE' hV' hw.2 hs.2 (sub A fun ω => (op.run k (R ω) (T ω) (c ω)).good)
        (fun ω => set (α := AST n) (R ω) d (op.run k (R ω) (T ω) (c ω)).val) (fun ω => (op.run k (R ω) (T ω) (c ω)).ctr)
        ⟨fun ω ω' hs hm => by
            rw [mem_sub] at hm ⊢
            have hs' := hs.mono (op_ctr k op (hT.valid ω) (c ω))
            exact ⟨hA.mem ω ω' hs' hm.1, by rw [hsame ω ω' hs hm.1]; exact hm.2⟩,
          fun ω ω' hs hm => by
            rw [mem_sub] at hm
            have hs' := hs.mono (op_ctr k op (hT.valid ω) (c ω))
            rw [hsame ω ω' hs hm.1, hA.regs ω ω' hs' hm.1],
          fun ω ω' hs hm => by
            rw [mem_sub] at hm
            rw [hsame ω ω' hs hm.1]⟩
        (fun ω hm => by
          rw [mem_sub] at hm
          exact holds_set (h ω hm.1) d (sat_op hn hk0 hk op i hM hE hV (h ω hm.1) hw.1 hs.1 (T ω) (hT.valid ω) (c ω) hm.2))
        (fun ω hm => hN ω (mem_sub.1 hm).1)
      have h3 : count A (fun ω => ¬ (run k (⟨d, op⟩ :: rest) (R ω) (T ω) (c ω)).good) ≤ count A (fun ω => ¬ (op.run k (R ω) (T ω) (c ω)).good)
          + count (sub A fun ω => (op.run k (R ω) (T ω) (c ω)).good) (fun ω => ¬ (run k rest (set (α := AST n) (R ω) d (op.run k (R ω) (T ω) (c ω)).val) (T ω) (op.run k (R ω) (T ω) (c ω)).ctr).good) := by
        rw [count_sub]
        refine (count_mono A fun ω _ hb => ?_).trans (count_or A _ _)
        by_cases hg : (op.run k (R ω) (T ω) (c ω)).good
        · exact Or.inr ⟨hg, fun hr => hb ⟨hg, hr⟩⟩
        · exact Or.inl hg
      have h4 : ((sub A fun ω => (op.run k (R ω) (T ω) (c ω)).good).card : ℚ) ≤ A.card := count_le_card A _
      have h5 := risk_nonneg rest cs hM hE' hs.2
      show _ ≤ (Op.risk k M E i op + risk k M cs rest (Function.update E d (op.err n k M E i))) * A.card
      nlinarith [mul_le_mul_of_nonneg_left h4 h5]

/-! ## Programs -/

/-- **C80.** Missing: programs of two parties that multiply by public fractions or divide by public numbers; there the shares that are truncated need not be random. -/
theorem C80_failures_partial [NeZero n] [∀ d, Fintype (sh d)] [Fintype Ω] (hn : n < 2 ^ 60) (hk0 : 0 < k) (hk : k ≤ 62) (prog : Prog n sh) (hp : n ≠ 2 ∨ NoPublic prog) (N : ℕ) (T : Ω → Tuples n) (hT : RandomSplit N prog T)
    (cs : List Info) (R : Regs n sh) (c : ℕ) (V : Nums sh) (M E : ℕ → ℚ) (hM : ∀ r, 0 ≤ M r) (hE : ∀ r, 0 ≤ E r) (hV : ∀ r i, |V r i| ≤ M r) (h : Holds k R V E) (hw : Within M prog V) (hs : Safe k M cs prog E)
    (hN : ∀ ω, (run k prog R (T ω) c).ctr ≤ N) (failed : Ω → Prop) [DecidablePred failed] (hf : ∀ ω, failed ω ↔ ¬ Holds k (run k prog R (T ω) c).val (exact prog V) (errs k M cs prog E)) :
    ((Finset.univ.filter failed).card : ℚ) ≤ risk k M cs prog E * Fintype.card Ω := by
  rw [← count_filter]
  refine (count_mono (b' := fun ω => ¬ (run k prog R (T ω) c).good) _ fun ω _ hω hg => ?_).trans
    (program_adapted hn hk0 hk hT hp prog (fun l hl => hl) cs hM hE hV hw hs Finset.univ (fun _ => R) (fun _ => c) ⟨fun _ _ _ _ => Finset.mem_univ _, fun _ _ _ _ => rfl, fun _ _ _ _ => rfl⟩
      (fun ω _ => h) fun ω _ => hN ω)
  exact (hf ω).1 hω (C72_program hn hk0 hk prog cs R V M E hM hE hV h hw hs (T ω) (hT.valid ω) c hg)

/-! ## Tuples split at random exist -/

/-- Everything zero except the splits of products and squares and the masks for wraps, which use the random words of the request. -/
def splitBy [NeZero n] (T₀ : Tuples n) {N : ℕ} (ω : Fin N → Fin n → I64) : Tuples n :=
  let u : ℕ → Fin n → I64 := fun c => if h : c < N then ω ⟨c, h⟩ else 0
  { T₀ with
    mul := fun c {_ _ _} _ => ⟨0, 0, fun p _ => u c p - u c (p + 1)⟩
    square := fun c _ => ⟨0, fun p _ => u c p - u c (p + 1)⟩
    wrap := fun c _ => ⟨fun p _ => u c p, fun p i => if p = 0 then countWraps (List.ofFn fun q => u c q) else 0⟩ }

theorem sum_differences [NeZero n] (u : Fin n → I64) : ∑ p, (u p - u (p + 1)) = 0 := by
  rw [Finset.sum_sub_distrib, sub_eq_zero]
  exact (Equiv.sum_comp (Equiv.addRight (1 : Fin n)) u).symm

theorem reveal_zero [NeZero n] : reveal (0 : Shares n ι) = 0 := by funext i; rw [reveal_apply]; simp

theorem splitBy_valid [NeZero n] {T₀ : Tuples n} (h : T₀.Valid) {N : ℕ} (ω : Fin N → Fin n → I64) : (splitBy T₀ ω).Valid := by
  refine ⟨fun c _ _ _ B => ?_, fun c ι i => ?_, h.bin, h.b2a, fun c ι i => ?_, h.zeroA, h.zeroX, h.kbit⟩
  · funext i
    show reveal (fun p _ => _) i = B.apply (reveal 0) (reveal 0) i
    rw [reveal_zero, apply_zero_left, reveal_apply]
    exact sum_differences _
  · rw [show (splitBy T₀ ω).square c ι = ⟨0, _⟩ from rfl, reveal_zero]
    simp only [Pi.zero_apply, mul_zero]
    rw [reveal_apply]
    exact sum_differences _
  · show reveal (fun p i => if p = 0 then _ else _) i = _
    rw [reveal_apply, Finset.sum_ite_eq' Finset.univ]
    simp [splitBy]

/-- One word of one request is moved by `v`. -/
def shift {N : ℕ} (c : Fin N) (p : Fin n) (v : I64) (ω : Fin N → Fin n → I64) : Fin N → Fin n → I64 := Function.update ω c (Function.update (ω c) p (ω c p + v))

theorem shift_before [NeZero n] (T₀ : Tuples n) {N : ℕ} (c : Fin N) (p : Fin n) (v : I64) (ω : Fin N → Fin n → I64) : SameBefore c.1 (splitBy T₀ ω) (splitBy T₀ (shift c p v ω)) := by
  have e : ∀ k, k < c.1 → (if h : k < N then shift c p v ω ⟨k, h⟩ else 0) = if h : k < N then ω ⟨k, h⟩ else 0 := fun k hk => by
    by_cases h : k < N
    · rw [dif_pos h, dif_pos h, shift, Function.update_of_ne fun e => absurd (congrArg Fin.val e) hk.ne]
    · rw [dif_neg h, dif_neg h]
  refine ⟨fun k hk {_ _ _} B => ?_, fun k hk ι => ?_, fun _ _ _ => rfl, fun _ _ _ => rfl, fun k hk ι => ?_, fun _ _ _ => rfl, fun _ _ _ => rfl, fun _ _ _ _ => rfl⟩
  all_goals simp only [splitBy, e k hk]

theorem shift_inj {N : ℕ} (c : Fin N) (p : Fin n) (v : I64) : Function.Injective (shift c p v) := by
  intro ω ω' h
  have e1 : ∀ k q, shift c p v ω k q = shift c p v ω' k q := fun k q => by rw [h]
  funext k q
  have := e1 k q
  unfold shift at this
  by_cases hk : k = c
  · subst hk
    rw [Function.update_self, Function.update_self] at this
    by_cases hq : q = p
    · subst hq; rw [Function.update_self, Function.update_self] at this; exact add_right_cancel this
    · rwa [Function.update_of_ne hq, Function.update_of_ne hq] at this
  · rwa [Function.update_of_ne hk, Function.update_of_ne hk] at this

/-- A word that moves along is spread. -/
theorem spread_of_shift {τ : Type} [NeZero n] (T₀ : Tuples n) {N : ℕ} (c : Fin N) (p : Fin n) (x : (Fin N → Fin n → I64) → τ) (y : (Fin N → Fin n → I64) → I64)
    (hx : ∀ v ω, x ω = x (shift c p v ω)) (hy : ∀ v ω, y (shift c p v ω) = y ω + v) : Spread (splitBy T₀ (N := N)) c.1 x y := by
  intro A hA w
  have h1 : (A.filter fun ω => y ω = w).card * Fintype.card I64 ≤ A.card := by
    rw [← Finset.card_univ, ← Finset.card_product]
    refine Finset.card_le_card_of_injOn (fun z => shift c p z.2 z.1) (fun z hz => ?_) (fun z hz z' hz' e => ?_)
    · have h2 := (Finset.mem_filter.1 (Finset.mem_product.1 (Finset.mem_coe.1 hz)).1).1
      exact Finset.mem_coe.2 (hA _ _ (shift_before T₀ c p z.2 z.1) (hx z.2 z.1) h2)
    · have h2 := (Finset.mem_filter.1 (Finset.mem_product.1 (Finset.mem_coe.1 hz)).1).2
      have h3 := (Finset.mem_filter.1 (Finset.mem_product.1 (Finset.mem_coe.1 hz')).1).2
      have e' : shift c p z.2 z.1 = shift c p z'.2 z'.1 := e
      have e1 : z.2 = z'.2 := by
        have := congrArg y e'
        rw [hy, hy, h2, h3] at this
        exact add_left_cancel this
      have e2 : z.1 = z'.1 := by rw [e1] at e'; exact shift_inj c p _ e'
      exact Prod.ext e2 e1
  have h2 : Fintype.card I64 = 2 ^ 64 := by
    rw [← Fintype.card_fin (2 ^ 64)]
    exact Fintype.card_congr ⟨BitVec.toFin, BitVec.ofFin, fun _ => rfl, fun _ => rfl⟩
  rw [h2] at h1
  exact (Nat.mul_le_mul_left _ (Nat.sub_le _ _)).trans h1

/-- **C80 (not vacuous).** For every program there are finitely many equally likely outcomes that are split at random. -/
theorem C80_random_splits_exist [NeZero n] (N : ℕ) (prog : Prog n sh) : ∃ T : (Fin N → Fin n → I64) → Tuples n, RandomSplit N prog T := by
  obtain ⟨T₀, hv, _⟩ := tuples_exist n
  have e0 : ∀ {ω : Fin N → Fin n → I64} (c : ℕ) (hc : c < N), (if h : c < N then ω ⟨c, h⟩ else 0) = ω ⟨c, hc⟩ := fun c hc => dif_pos hc
  have e1 : 1 < n → ∀ (ω : Fin N → Fin n → I64) (c : Fin N) (p : Fin n) (v : I64), shift c p v ω c p - shift c p v ω c (p + 1) = ω c p - ω c (p + 1) + v := fun hn ω c p v => by
    have hp : p + 1 ≠ p := fun e => by
      have h1 := congrArg Fin.val (add_eq_left.1 e)
      rw [Fin.val_one', Nat.mod_eq_of_lt hn] at h1
      exact absurd h1 (by simp)
    rw [shift, Function.update_self, Function.update_self, Function.update_of_ne hp]; ring
  refine ⟨splitBy T₀, fun ω => splitBy_valid hv ω, fun hn c hc d a b B _ p i => ?_, fun hn c hc d a f _ p i => ?_, fun c hc d op _ p i => ?_⟩
  · refine spread_of_shift T₀ ⟨c, hc⟩ p _ _ (fun v ω => rfl) fun v ω => ?_
    show (if h : c < N then shift ⟨c, hc⟩ p v ω ⟨c, h⟩ else 0) p - (if h : c < N then shift ⟨c, hc⟩ p v ω ⟨c, h⟩ else 0) (p + 1) = (if h : c < N then ω ⟨c, h⟩ else 0) p - (if h : c < N then ω ⟨c, h⟩ else 0) (p + 1) + v
    rw [e0 c hc, e0 c hc]; exact e1 hn ω ⟨c, hc⟩ p v
  · refine spread_of_shift T₀ ⟨c, hc⟩ p _ _ (fun v ω => rfl) fun v ω => ?_
    show (if h : c < N then shift ⟨c, hc⟩ p v ω ⟨c, h⟩ else 0) p - (if h : c < N then shift ⟨c, hc⟩ p v ω ⟨c, h⟩ else 0) (p + 1) = (if h : c < N then ω ⟨c, h⟩ else 0) p - (if h : c < N then ω ⟨c, h⟩ else 0) (p + 1) + v
    rw [e0 c hc, e0 c hc]; exact e1 hn ω ⟨c, hc⟩ p v
  · refine spread_of_shift T₀ ⟨c, hc⟩ p _ _ (fun v ω => ?_) fun v ω => ?_
    · funext q j
      show (if h : c < N then ω ⟨c, h⟩ else 0) q.1 = (if h : c < N then shift ⟨c, hc⟩ p v ω ⟨c, h⟩ else 0) q.1
      rw [e0 c hc, e0 c hc, shift, Function.update_self, Function.update_of_ne q.2]
    · show (if h : c < N then shift ⟨c, hc⟩ p v ω ⟨c, h⟩ else 0) p = (if h : c < N then ω ⟨c, h⟩ else 0) p + v
      rw [e0 c hc, e0 c hc, shift, Function.update_self, Function.update_self]

instance sampleFintype : ∀ d, Fintype (sampleShape d)
  | 0 => inferInstanceAs (Fintype (Fin 2))
  | 1 => inferInstanceAs (Fintype (Fin 2))
  | _ + 2 => inferInstanceAs (Fintype Unit)

/-- The scalar product of the numbers of party 0 and those of party 1. -/
def scalar : Prog 2 sampleShape := neuron.take 3

/-- The scalar product of `Props/Program.lean` fails in less than one of 10 ^ 8 cases. -/
example : ∃ T : (Fin 4 → Fin 2 → I64) → Tuples 2, RandomSplit 4 scalar T ∧
    ∀ (failed : (Fin 4 → Fin 2 → I64) → Prop) [DecidablePred failed], (∀ ω, failed ω ↔ ¬ Holds 16 (run 16 scalar zeros (T ω) 0).val (exact scalar fun _ _ => 0) (errs 16 (fun _ => 4) [{}, {}, { terms := 2 }] scalar fun _ => 0)) →
      ((Finset.univ.filter failed).card : ℚ) ≤ 1 / 10 ^ 8 * Fintype.card (Fin 4 → Fin 2 → I64) := by
  obtain ⟨T, hT⟩ := C80_random_splits_exist (n := 2) 4 scalar
  have hc : ∀ ω, (run 16 scalar zeros (T ω) 0).ctr ≤ 4 := fun ω => le_refl 4
  refine ⟨T, hT, fun failed _ hf => ?_⟩
  have h := C80_failures_partial (by norm_num) (by norm_num) (by norm_num) scalar (Or.inr ?_) 4 T hT [{}, {}, { terms := 2 }] zeros 0 (fun _ _ => 0) (fun _ => 4) (fun _ => 0) (fun _ => by norm_num)
    (fun _ => le_refl _) (fun _ _ => by norm_num) zeros_holds ⟨neuron_within.1, neuron_within.2.1, neuron_within.2.2.1, trivial⟩ ⟨neuron_safe.1, neuron_safe.2.1, neuron_safe.2.2.1, trivial⟩ hc failed hf
  · refine h.trans (mul_le_mul_of_nonneg_right ?_ (Nat.cast_nonneg _))
    show (0 : ℚ) + (0 + (((1 : ℕ) : ℚ) * ((2 ^ 16 * 2 ^ 16 * (((2 : ℕ) : ℚ) * ((4 + 1 / 2 ^ 16) * (4 + 1 / 2 ^ 16))) + 2 * ((2 : ℕ) : ℚ)) / (2 ^ 64 - 1)) + 0)) ≤ 1 / 10 ^ 8
    norm_num
  · intro l hl d
    simp only [scalar, neuron, List.take, List.mem_cons, List.not_mem_nil, or_false] at hl
    rcases hl with rfl | rfl | rfl <;> refine ⟨fun a m B y e => ?_, fun a f z e => ?_⟩ <;> cases e

end CrypTen.Failure

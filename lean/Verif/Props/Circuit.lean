import Verif.Lemmas.Spk
import Verif.Lemmas.Proto

/-!
# C18, C19: addition and comparison of XOR-shared words, for every sharing, every tuple stream and every number of parties
-/

namespace CrypTen
variable {n : ℕ} {ι : Type}

theorem sat_spkStage [NeZero n] (i : ℕ) (hi : i < 6) (SP : Shares n (Bool × ι)) :
    SatX (spkStage i SP) fun SP' => ∀ k : ι,
      (revealX SP' (false, k), revealX SP' (true, k)) = plainStage i (revealX SP (false, k), revealX SP (true, k)) := by
  refine SatX.bind (sat_and _ _) fun u hu => SatX.pure fun k => ?_
  have hmul : ∀ (s : Shares n (Bool × ι)) q, revealX (fun p k => andPublic s (fun _ => spkMask i) p k * spkMult i) q
      = (revealX s q &&& spkMask i) * spkMult i := by
    intro s q
    have := revealX_map (fun a => (a &&& spkMask i) * spkMult i) (by simp) (fun a b => fanout_xor i hi a b) s q
    exact this
  have hrow : ∀ b, revealX (rowSP b SP) k = revealX SP (b, k) := fun b => revealX_reindex (fun j => (b, j)) SP k
  have hP0 : ∀ b, revealX (fun p (q : Bool × ι) => andPublic (rowSP true SP) (fun _ => spkOutMask i) p q.2) (b, k) = revealX SP (true, k) &&& spkOutMask i := by
    intro b
    have := revealX_reindex (fun q : Bool × ι => q.2) (andPublic (rowSP true SP) (fun _ => spkOutMask i)) (b, k)
    rw [this, revealX_andPublic, hrow]
  have hT : revealX (fun p (q : Bool × ι) => if q.1 then SP p q &&& (spkOutMask i ^^^ (-1)) else SP p q) (true, k) = revealX SP (true, k) &&& (spkOutMask i ^^^ (-1)) :=
    revealX_andPublic SP (fun _ => spkOutMask i ^^^ (-1)) (true, k)
  have hF : revealX (fun p (q : Bool × ι) => if q.1 then SP p q &&& (spkOutMask i ^^^ (-1)) else SP p q) (false, k) = revealX SP (false, k) := rfl
  rw [revealX_xorShares, revealX_xorShares, hu, hu, hmul, hmul, hP0, hP0, hT, hF]
  rfl

theorem sat_spkLoop [NeZero n] : ∀ (m i : ℕ) (_ : i + m ≤ 6) (SP : Shares n (Bool × ι)),
    SatX (spkLoop m i SP) fun SP' => ∀ k : ι,
      (revealX SP' (false, k), revealX SP' (true, k)) = plainLoop m i (revealX SP (false, k), revealX SP (true, k)) := by
  intro m
  induction m with
  | zero => exact fun i _ SP => SatX.pure fun k => rfl
  | succ m ih =>
    intro i hle SP
    refine SatX.bind (sat_spkStage i (by omega) SP) fun SP1 h1 => (ih (i + 1) (by omega) SP1).mono fun SP2 h2 k => ?_
    rw [h2 k, h1 k]; rfl

/-- The shared set/propagate tree computes, at every bit, the scan from bit 0. -/
theorem sat_spkCircuit [NeZero n] (S P : Shares n ι) :
    SatX (spkCircuit S P) fun r => ∀ k, ∀ j < 64,
      (revealX r.1 k).getLsbD j = scan (revealX S k).getLsbD (revealX P k).getLsbD 0 j ∧
      (revealX r.2 k).getLsbD j = allProp (revealX P k).getLsbD 0 j := by
  refine SatX.bind (sat_spkLoop 6 0 le_rfl _) fun SP h => SatX.pure fun k j hj => ?_
  have hk := h k
  have e1 : revealX (rowSP false SP) k = revealX SP (false, k) := revealX_reindex (fun j => (false, j)) SP k
  have e2 : revealX (rowSP true SP) k = revealX SP (true, k) := revealX_reindex (fun j => (true, j)) SP k
  have e3 : revealX (stackSP S P) (false, k) = revealX S k := rfl
  have e4 : revealX (stackSP S P) (true, k) = revealX P k := rfl
  rw [e3, e4] at hk
  have := plainLoop_spec (revealX S k) (revealX P k) j hj
  rw [← hk] at this
  rw [e1, e2]
  exact this

/-! ## C18 -/

theorem scan_carry (x y : I64) : ∀ j, scan (x &&& y).getLsbD (x ^^^ y).getLsbD 0 j = BitVec.carry (j + 1) x y false := by
  intro j
  induction j with
  | zero =>
    rw [BitVec.carry_succ]
    simp only [scan, BitVec.getLsbD_and, BitVec.carry_zero, Bool.atLeastTwo]
    cases x.getLsbD 0 <;> cases y.getLsbD 0 <;> rfl
  | succ j ih =>
    rw [BitVec.carry_succ, ← ih]
    simp only [scan, Nat.zero_add, BitVec.getLsbD_and, BitVec.getLsbD_xor, Bool.atLeastTwo]
    cases x.getLsbD (j + 1) <;> cases y.getLsbD (j + 1) <;> simp

theorem adder_word (x y carry : I64) (h : ∀ j < 64, carry.getLsbD j = scan (x &&& y).getLsbD (x ^^^ y).getLsbD 0 j) :
    (x ^^^ y) ^^^ (carry <<< 1) = x + y := by
  apply BitVec.eq_of_getLsbD_eq
  intro j hj
  rw [BitVec.getLsbD_add hj, BitVec.getLsbD_xor, BitVec.getLsbD_xor, BitVec.getLsbD_shiftLeft]
  cases j with
  | zero => simp [BitVec.carry_zero]
  | succ j =>
    simp only [Nat.add_sub_cancel]
    rw [h j (by omega), scan_carry]
    simp [hj]

/-- **C18.** Adding two XOR-shared tensors reveals the sum modulo `2^64`. -/
theorem C18_add [NeZero n] (x y : Shares n ι) : SatX (addX x y) fun z => ∀ i, revealX z i = revealX x i + revealX y i := by
  refine SatX.bind (sat_and x y) fun S hS => SatX.bind (sat_spkCircuit S (xorShares x y)) fun r hr => SatX.pure fun i => ?_
  rw [revealX_xorShares, revealX_xorShares, revealX_lshift]
  apply adder_word
  intro j hj
  rw [(hr i j hj).1, hS, revealX_xorShares]

/-- **C18 (public operand).** -/
theorem C18_add_public [NeZero n] (x : Shares n ι) (y : Tensor ι) : SatX (addXPublic x y) fun z => ∀ i, revealX z i = revealX x i + y i := by
  refine SatX.bind (sat_spkCircuit (andPublic x y) (xorPublic x y)) fun r hr => SatX.pure fun i => ?_
  rw [revealX_xorShares, revealX_xorPublic, revealX_lshift]
  apply adder_word
  intro j hj
  rw [(hr i j hj).1, revealX_andPublic, revealX_xorPublic]

/-! ## C19 -/

theorem signBit_word (a : I64) : boolI64 (a.sshiftRight 63 == -1#64) = boolI64 (a.getLsbD 63) := by
  congr 1
  rw [Bool.eq_iff_iff, beq_iff_eq]
  constructor
  · intro h
    have h0 := congrArg (fun b : I64 => b.getLsbD 0) h
    simp only [BitVec.getLsbD_sshiftRight] at h0
    simpa using h0
  · intro h
    apply BitVec.eq_of_getLsbD_eq
    intro j hj
    have hneg : (-1#64 : I64).getLsbD j = true := by
      have : (-1#64 : I64) = BitVec.allOnes 64 := by decide
      rw [this, BitVec.getLsbD_allOnes]; simp [hj]
    rw [hneg, BitVec.getLsbD_sshiftRight]
    have h63 : a.msb = true := by rw [BitVec.msb_eq_getLsbD_last]; exact h
    have hj' : ¬ 64 ≤ j := by omega
    rcases Nat.eq_zero_or_pos j with h0 | h0
    · subst h0; simpa using h
    · have : ¬ 63 + j < 64 := by omega
      simp [hj', this, h63]

theorem revealX_getSignBit (x : Shares n ι) (i : ι) : revealX (getSignBit x) i = boolI64 ((revealX x i).getLsbD 63) := by
  have h := revealX_map (n := n) (fun a => boolI64 (a.sshiftRight 63 == -1#64)) (by decide)
    (by intro a b; rw [signBit_word, signBit_word, signBit_word, BitVec.getLsbD_xor, boolI64_xor]) x i
  rw [signBit_word] at h
  exact h

theorem mod_two_pow_succ' (x i : ℕ) : x % 2 ^ (i + 1) = 2 ^ i * (x.testBit i).toNat + x % 2 ^ i := by
  rw [Nat.mod_pow_succ, Nat.toNat_testBit, Nat.add_comm]

/-- Unsigned comparison by scanning from the least significant bit. -/
theorem scan_lt (x y : I64) : ∀ j < 64, scan (y &&& ~~~x).getLsbD (~~~(x ^^^ y)).getLsbD 0 j = decide (x.toNat % 2 ^ (j + 1) < y.toNat % 2 ^ (j + 1)) := by
  intro j
  induction j with
  | zero =>
    intro _
    rw [mod_two_pow_succ', mod_two_pow_succ', pow_zero, Nat.mod_one, Nat.mod_one]
    simp only [scan, BitVec.getLsbD_and, BitVec.getLsbD_not]
    simp only [BitVec.getLsbD]
    cases x.toNat.testBit 0 <;> cases y.toNat.testBit 0 <;> decide
  | succ j ih =>
    intro hj
    have hx := Nat.mod_lt x.toNat (show 0 < 2 ^ (j + 1) by positivity)
    have hy := Nat.mod_lt y.toNat (show 0 < 2 ^ (j + 1) by positivity)
    rw [mod_two_pow_succ' x.toNat (j + 1), mod_two_pow_succ' y.toNat (j + 1)]
    simp only [scan, Nat.zero_add, ih (by omega), BitVec.getLsbD_and, BitVec.getLsbD_not, BitVec.getLsbD_xor, hj, decide_true, Bool.true_and]
    simp only [BitVec.getLsbD]
    generalize 2 ^ (j + 1) = w at *
    cases x.toNat.testBit (j + 1) <;> cases y.toNat.testBit (j + 1) <;> simp <;> omega

theorem allProp_eq (x y : I64) : ∀ j < 64, allProp (~~~(x ^^^ y)).getLsbD 0 j = decide (x.toNat % 2 ^ (j + 1) = y.toNat % 2 ^ (j + 1)) := by
  intro j
  induction j with
  | zero =>
    intro _
    rw [mod_two_pow_succ', mod_two_pow_succ', pow_zero, Nat.mod_one, Nat.mod_one]
    simp only [allProp, BitVec.getLsbD_not, BitVec.getLsbD_xor]
    simp only [BitVec.getLsbD]
    cases x.toNat.testBit 0 <;> cases y.toNat.testBit 0 <;> decide
  | succ j ih =>
    intro hj
    have hx := Nat.mod_lt x.toNat (show 0 < 2 ^ (j + 1) by positivity)
    have hy := Nat.mod_lt y.toNat (show 0 < 2 ^ (j + 1) by positivity)
    rw [mod_two_pow_succ' x.toNat (j + 1), mod_two_pow_succ' y.toNat (j + 1)]
    simp only [allProp, Nat.zero_add, ih (by omega), BitVec.getLsbD_not, BitVec.getLsbD_xor, hj, decide_true, Bool.true_and]
    simp only [BitVec.getLsbD]
    generalize 2 ^ (j + 1) = w at *
    cases x.toNat.testBit (j + 1) <;> cases y.toNat.testBit (j + 1) <;> simp <;> omega

/-- Flipping the sign bit turns signed into unsigned order. -/
theorem flip_toNat (x : I64) : ((x ^^^ BitVec.ofInt 64 (-(2 ^ 63))).toNat : ℤ) = x.toInt + 2 ^ 63 := by
  have hbit : ∀ j < 64, (BitVec.ofInt 64 (-(2 ^ 63))).getLsbD j = decide (j = 63) := by decide +kernel
  have hlow : (x ^^^ BitVec.ofInt 64 (-(2 ^ 63))).toNat % 2 ^ 63 = x.toNat % 2 ^ 63 := by
    apply Nat.eq_of_testBit_eq
    intro j
    rw [Nat.testBit_mod_two_pow, Nat.testBit_mod_two_pow, ← BitVec.getLsbD, ← BitVec.getLsbD, BitVec.getLsbD_xor]
    by_cases hj : j < 63
    · rw [hbit j (by omega)]
      have : j ≠ 63 := by omega
      simp [this]
    · simp [hj]
  have htop : (x ^^^ BitVec.ofInt 64 (-(2 ^ 63))).toNat.testBit 63 = !x.toNat.testBit 63 := by
    rw [← BitVec.getLsbD, ← BitVec.getLsbD, BitVec.getLsbD_xor, hbit 63 (by omega)]; simp
  have e1 := mod_two_pow_succ' (x ^^^ BitVec.ofInt 64 (-(2 ^ 63))).toNat 63
  have e2 := mod_two_pow_succ' x.toNat 63
  rw [Nat.mod_eq_of_lt (BitVec.isLt _), hlow, htop] at e1
  rw [Nat.mod_eq_of_lt (BitVec.isLt _)] at e2
  have hl := Nat.mod_lt x.toNat (show 0 < 2 ^ 63 by positivity)
  rw [e1, BitVec.toInt_eq_toNat_cond]
  generalize x.toNat % 2 ^ 63 = lo at *
  generalize x.toNat = v at *
  clear e1 htop hlow
  generalize v.testBit 63 = tb at *
  cases tb <;> simp only [Bool.not_false, Bool.not_true, Bool.toNat_true, Bool.toNat_false, mul_one, mul_zero] at e2 ⊢ <;> split <;> omega

theorem revealX_flip [NeZero n] (x : Shares n ι) (i : ι) : revealX (flipSignBit x) i = revealX x i ^^^ BitVec.ofInt 64 (-(2 ^ 63)) :=
  revealX_xorPublic x _ i

theorem mod_full (x : I64) : x.toNat % 2 ^ (63 + 1) = x.toNat := Nat.mod_eq_of_lt x.isLt

/-- **C19 (`<`, `<=`, `>`, `>=`).** Signed comparison of XOR-shared words, with no overflow condition. -/
theorem C19_order [NeZero n] (x y : Shares n ι) :
    SatX (ltX x y) (fun z => ∀ i, revealX z i = boolI64 (decide ((revealX x i).toInt < (revealX y i).toInt))) ∧
    SatX (leX x y) (fun z => ∀ i, revealX z i = boolI64 (decide ((revealX x i).toInt ≤ (revealX y i).toInt))) ∧
    SatX (gtX x y) (fun z => ∀ i, revealX z i = boolI64 (decide ((revealX x i).toInt > (revealX y i).toInt))) ∧
    SatX (geX x y) (fun z => ∀ i, revealX z i = boolI64 (decide ((revealX x i).toInt ≥ (revealX y i).toInt))) := by
  have key : ∀ a b S P : Shares n ι, (∀ i, revealX S i = revealX (flipSignBit b) i &&& revealX (notShares (flipSignBit a)) i) →
      (∀ i, revealX P i = ~~~(revealX (flipSignBit a) i ^^^ revealX (flipSignBit b) i)) →
      SatX (spkCircuit S P)
        (fun r => ∀ i, (revealX r.1 i).getLsbD 63 = decide ((revealX a i).toInt < (revealX b i).toInt) ∧
          (revealX r.2 i).getLsbD 63 = decide ((revealX a i).toInt = (revealX b i).toInt)) := by
    intro a b S P hS hP
    refine (sat_spkCircuit S P).mono fun r hr i => ?_
    obtain ⟨h1, h2⟩ := hr i 63 (by omega)
    have ha := flip_toNat (revealX a i); have hb := flip_toNat (revealX b i)
    rw [h1, h2, hS, hP, revealX_notShares, revealX_flip, revealX_flip, scan_lt _ _ 63 (by omega),
      allProp_eq _ _ 63 (by omega), mod_full, mod_full, decide_eq_decide, decide_eq_decide]
    constructor <;> omega
  have hP : ∀ i, revealX (notShares (xorShares (flipSignBit x) (flipSignBit y))) i = ~~~(revealX (flipSignBit x) i ^^^ revealX (flipSignBit y) i) := by
    intro i; rw [revealX_notShares, revealX_xorShares]
  have hP' : ∀ i, revealX (notShares (xorShares (flipSignBit x) (flipSignBit y))) i = ~~~(revealX (flipSignBit y) i ^^^ revealX (flipSignBit x) i) := by
    intro i; rw [hP, BitVec.xor_comm]
  refine ⟨?_, ?_, ?_, ?_⟩
  · exact SatX.bind (sat_and _ _) fun S hS => SatX.bind (key x y S _ hS hP) fun r hr => SatX.pure fun i => by rw [revealX_getSignBit, (hr i).1]
  · refine SatX.bind (sat_and _ _) fun S hS => SatX.bind (key x y S _ hS hP) fun r hr => SatX.pure fun i => ?_
    rw [revealX_getSignBit, revealX_xorShares, BitVec.getLsbD_xor, (hr i).1, (hr i).2]
    congr 1
    generalize (revealX x i).toInt = a; generalize (revealX y i).toInt = b
    rcases lt_trichotomy a b with h | h | h
    · simp [h, h.ne, h.le]
    · simp [h]
    · simp [h.not_gt, h.ne', h.not_ge]
  · refine SatX.bind (sat_and _ _) fun S hS => SatX.bind (key y x S _ hS hP') fun r hr => SatX.pure fun i => by rw [revealX_getSignBit, (hr i).1]
  · refine SatX.bind (sat_and _ _) fun S hS => SatX.bind (key y x S _ hS hP') fun r hr => SatX.pure fun i => ?_
    rw [revealX_getSignBit, revealX_xorShares, BitVec.getLsbD_xor, (hr i).1, (hr i).2]
    congr 1
    generalize (revealX x i).toInt = a; generalize (revealX y i).toInt = b
    rcases lt_trichotomy a b with h | h | h
    · simp [h.not_gt, h.ne', h.not_ge]
    · simp [h]
    · simp [h, h.ne, h.le]

/-! ### Equality -/

/-- The loop of the propagate circuit on a plain word. -/
def plainPLoop : (m shift : ℕ) → I64 → I64
  | 0, _, P => P
  | m + 1, shift, P => plainPLoop m (shift / 2) (P &&& (P <<< shift))

theorem sat_pLoop [NeZero n] : ∀ (m shift : ℕ) (P : Shares n ι), SatX (pLoop m shift P) fun z => ∀ i, revealX z i = plainPLoop m shift (revealX P i) := by
  intro m
  induction m with
  | zero => exact fun _ P => SatX.pure fun i => rfl
  | succ m ih =>
    intro shift P
    refine SatX.bind (sat_and _ _) fun Q hQ => (ih (shift / 2) Q).mono fun z hz i => ?_
    rw [hz i, hQ i, revealX_lshift]; rfl

/-- Starting with a word of which bit `63 - t` stands for the AND of the bits `63 - t - k * 2^m`, the loop ends with the AND of all. -/
theorem plainPLoop_top : ∀ (m : ℕ) (P : I64), m ≤ 6 →
    ((plainPLoop m (2 ^ m / 2) P).getLsbD 63 = true ↔ ∀ t < 2 ^ m, P.getLsbD (63 - t) = true) := by
  intro m
  induction m with
  | zero => intro P _; simp [plainPLoop]
  | succ m ih =>
    intro P hm
    have e : 2 ^ (m + 1) / 2 = 2 ^ m := by rw [pow_succ]; omega
    have hle : 2 ^ (m + 1) ≤ 2 ^ 6 := Nat.pow_le_pow_right (by norm_num) hm
    have hp : 2 ^ (m + 1) = 2 * 2 ^ m := by rw [pow_succ]; ring
    rw [plainPLoop, e, ih _ (by omega)]
    constructor
    · intro h t ht
      by_cases hlt : t < 2 ^ m
      · have := h t hlt
        rw [BitVec.getLsbD_and, Bool.and_eq_true] at this
        exact this.1
      · have h1 := h (t - 2 ^ m) (by omega)
        rw [BitVec.getLsbD_and, Bool.and_eq_true, BitVec.getLsbD_shiftLeft] at h1
        have h2 := h1.2
        have : 63 - (t - 2 ^ m) - 2 ^ m = 63 - t := by omega
        rw [this] at h2
        simp only [Bool.and_eq_true] at h2
        exact h2.2
    · intro h t ht
      rw [BitVec.getLsbD_and, Bool.and_eq_true, BitVec.getLsbD_shiftLeft]
      refine ⟨h t (by omega), ?_⟩
      have h2 := h (t + 2 ^ m) (by omega)
      have : 63 - t - 2 ^ m = 63 - (t + 2 ^ m) := by omega
      rw [this, h2]
      simp only [Bool.and_true, Bool.and_eq_true, decide_eq_true_eq, Bool.not_eq_true', decide_eq_false_iff_not]
      omega

/-- **C19 (`==`, `!=`).** -/
theorem C19_equality [NeZero n] (x y : Shares n ι) :
    SatX (eqX x y) (fun z => ∀ i, revealX z i = boolI64 (decide (revealX x i = revealX y i))) ∧
    SatX (neX x y) (fun z => ∀ i, revealX z i = boolI64 (decide (revealX x i ≠ revealX y i))) := by
  have heq : SatX (eqX x y) (fun z => ∀ i, revealX z i = boolI64 (decide (revealX x i = revealX y i))) := by
    refine SatX.bind (sat_pLoop 6 32 _) fun P hP => SatX.pure fun i => ?_
    rw [revealX_getSignBit, hP, revealX_notShares, revealX_xorShares]
    congr 1
    rw [Bool.eq_iff_iff, decide_eq_true_eq, show (32 : ℕ) = 2 ^ 6 / 2 from rfl, plainPLoop_top 6 _ le_rfl]
    constructor
    · intro h
      apply BitVec.eq_of_getLsbD_eq
      intro j hj
      have := h (63 - j) (by omega)
      rw [show 63 - (63 - j) = j by omega, BitVec.getLsbD_not, BitVec.getLsbD_xor] at this
      revert this
      cases (revealX x i).getLsbD j <;> cases (revealX y i).getLsbD j <;> simp
    · intro h t ht
      have : 63 - t < 64 := by omega
      rw [h, BitVec.getLsbD_not, BitVec.getLsbD_xor]; simp [this]
  refine ⟨heq, SatX.bind heq fun e he => SatX.pure fun i => ?_⟩
  rw [revealX_xorPublic, he]
  by_cases h : revealX x i = revealX y i <;> simp [h] <;> decide

/-- **C59.** Selection between two XOR-shared tensors by an encrypted condition bit; only bit 0 of the condition counts. -/
theorem C59_where [NeZero n] (x cond y : Shares n ι) :
    SatX (whereX x cond y) fun z => ∀ i, revealX z i = if (revealX cond i).getLsbD 0 then revealX x i else revealX y i := by
  refine SatX.bind (sat_and _ _) fun u hu => SatX.bind (sat_and _ _) fun v hv => SatX.pure fun i => ?_
  have hexp : ∀ a : I64, -(a &&& 1) = if a.getLsbD 0 then BitVec.allOnes 64 else 0#64 := by
    intro a
    have : a &&& 1 = boolI64 (a.getLsbD 0) := by
      apply BitVec.eq_of_getLsbD_eq
      intro j hj
      have h1 : ∀ j < 64, (1 : I64).getLsbD j = decide (j = 0) := by decide +kernel
      have h0 : ∀ j < 64, ∀ b, (boolI64 b).getLsbD j = (decide (j = 0) && b) := by decide +kernel
      rw [BitVec.getLsbD_and, h1 j hj, h0 j hj]
      by_cases h : j = 0
      · subst h; cases a.getLsbD 0 <;> rfl
      · simp [h]
    rw [this]
    cases a.getLsbD 0 <;> decide
  have hc : revealX (fun p i => -(cond p i &&& 1)) i = if (revealX cond i).getLsbD 0 then BitVec.allOnes 64 else 0#64 := by
    rw [← hexp]
    refine revealX_map (fun a => -(a &&& 1)) (by decide) (fun a b => ?_) cond i
    rw [hexp, hexp, hexp, BitVec.getLsbD_xor]
    cases a.getLsbD 0 <;> cases b.getLsbD 0 <;> decide
  rw [revealX_xorShares, hu, hv, revealX_notShares, hc]
  split
  · rw [BitVec.and_allOnes, BitVec.not_allOnes, BitVec.zero_and, BitVec.xor_zero]
  · rw [BitVec.and_zero, BitVec.not_zero, BitVec.allOnes_and, BitVec.zero_xor]

/-- The statements are about something: a valid tuple stream with non-zero tuples exists, for every number of parties. -/
theorem tuples_exist (n : ℕ) [NeZero n] : ∃ T : Tuples n, T.Valid ∧ (∀ k ι i, revealX (T.bin k ι).a i = 3 ∧ revealX (T.bin k ι).b i = 6) ∧
    (∀ k ι i, reveal (T.wrap k ι).r i = 7) := by
  classical
  have e1 : ∀ (ι : Type) (v : I64) (i : ι), reveal (n := n) (fun p (_ : ι) => if p = 0 then v else 0) i = v := by
    intro ι v i; rw [reveal_apply, Finset.sum_ite_eq' Finset.univ (0 : Fin n) fun _ => v]; simp
  have e2 : ∀ (ι : Type) (v : I64) (i : ι), revealX (n := n) (fun p (_ : ι) => if p = 0 then v else 0#64) i = v := by
    intro ι v i; rw [revealX_apply]; exact xsum_single 0 v
  have e1' : ∀ {ι : Type} (t : Tensor ι), reveal (n := n) (fun p (i : ι) => if p = 0 then t i else 0) = t := by
    intro ι t; funext i; rw [reveal_apply, Finset.sum_ite_eq' Finset.univ (0 : Fin n) fun _ => t i]; simp
  refine ⟨{ mul := fun _ {ι ι' κ} B => ⟨fun p _ => if p = 0 then 5 else 0, fun p _ => if p = 0 then 9 else 0, fun p i => if p = 0 then B.apply (fun _ => 5) (fun _ => 9) i else 0⟩
            square := fun _ _ => ⟨fun p _ => if p = 0 then 5 else 0, fun p _ => if p = 0 then 25 else 0⟩
            bin := fun _ _ => ⟨fun p _ => if p = 0 then 3 else 0#64, fun p _ => if p = 0 then 6 else 0#64, fun p _ => if p = 0 then 2 else 0#64⟩
            b2a := fun _ _ => ⟨fun p _ => if p = 0 then 1 else 0, fun p _ => if p = 0 then 1 else 0#64⟩
            wrap := fun _ _ => ⟨fun p _ => if p = 0 then 7 else 0, fun _ _ => 0⟩
            zeroA := fun _ _ _ _ => 0
            zeroX := fun _ _ _ _ => 0#64
            kbit := fun _ _ _ _ _ => 0#64 }, ⟨?_, ?_, ?_, ?_, ?_, ?_, ?_, ?_⟩, ?_, ?_⟩
  · intro k ι ι' κ B
    have ha : reveal (n := n) (fun p (_ : ι) => if p = 0 then 5 else 0) = fun _ => 5 := by funext i; exact e1 ι 5 i
    have hb : reveal (n := n) (fun p (_ : ι') => if p = 0 then 9 else 0) = fun _ => 9 := by funext i; exact e1 ι' 9 i
    show reveal _ = B.apply (reveal _) (reveal _)
    rw [ha, hb]; exact e1' _
  · intro k ι i
    show reveal _ i = reveal _ i * reveal _ i
    rw [e1, e1]; decide
  · intro k ι i
    show revealX _ i = revealX _ i &&& revealX _ i
    rw [e2, e2, e2]; decide
  · intro k ι i
    exact ⟨true, e1 ι 1 i, e2 ι 1 i⟩
  · intro k ι i
    show reveal (fun _ _ => 0) i = _
    have h0 : minCollisions (List.ofFn fun p : Fin n => if p = 0 then (7 : I64) else 0) = 0 := by
      apply minCollisions_eq_zero
      intro b hb
      have hb' := List.mem_of_mem_tail hb
      rw [List.mem_ofFn] at hb'
      obtain ⟨p, rfl⟩ := hb'
      split <;> decide
    have := C16_count_wraps_partial (List.ofFn fun p : Fin n => if p = 0 then (7 : I64) else 0) 0 (by
      rw [List.map_ofFn, List.sum_ofFn, List.sum_ofFn]
      have h1 := e1 Unit 7 ()
      rw [reveal_apply] at h1
      rw [h1]
      have h2 : ∀ p : Fin n, (BitVec.toInt ∘ fun p : Fin n => if p = 0 then (7 : I64) else 0) p = if p = 0 then 7 else 0 := by
        intro p; simp only [Function.comp]; split <;> rfl
      simp only [h2]
      rw [Finset.sum_ite_eq' Finset.univ (0 : Fin n) fun _ => (7 : ℤ)]; simp) h0
    rw [this, reveal_apply]; simp
  · intro k ι i; rw [reveal_apply]; exact Finset.sum_const_zero
  · intro k ι i; rw [revealX_apply]; exact xsum_zero
  · intro k bits ι p i; exact Nat.two_pow_pos bits
  · intro k ι i; exact ⟨e2 ι 3 i, e2 ι 6 i⟩
  · intro k ι i; exact e1 ι 7 i

end CrypTen

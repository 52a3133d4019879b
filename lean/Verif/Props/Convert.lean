import Verif.Model.Convert
import Verif.Props.Circuit

/-!
# C20: conversion between the two kinds of sharing keeps the secret
-/

namespace CrypTen
variable {n : ℕ} {ι : Type}

/-- Sum of the secrets of a list of XOR-shared rows. -/
def rowsSum (l : List (Shares n ι)) (i : ι) : I64 := (l.map fun r => revealX r i).sum

theorem rowsSum_append (l l' : List (Shares n ι)) (i : ι) : rowsSum (l ++ l') i = rowsSum l i + rowsSum l' i := by
  simp [rowsSum]

theorem rowsSum_eq_sum_getD (l : List (Shares n ι)) (i : ι) :
    rowsSum l i = ∑ k ∈ Finset.range l.length, revealX (l.getD k fun _ _ => 0#64) i := by
  induction l with
  | nil => rfl
  | cons a l ih =>
    rw [List.length_cons, Finset.sum_range_succ']
    have : rowsSum (a :: l) i = revealX a i + rowsSum l i := by simp [rowsSum]
    rw [this, ih, BitVec.add_comm]
    simp

theorem rowsSum_unstack {h : ℕ} (y : Shares n (Fin h × ι)) (i : ι) : rowsSum (unstackRows y) i = ∑ k : Fin h, revealX y (k, i) := by
  unfold rowsSum unstackRows
  rw [List.map_ofFn, List.sum_ofFn]
  exact Finset.sum_congr rfl fun k _ => revealX_reindex (fun i => (k, i)) y i

theorem revealX_takeRows (h off : ℕ) (l : List (Shares n ι)) (k : Fin h) (i : ι) :
    revealX (takeRows h off l) (k, i) = revealX (l.getD (off + k) fun _ _ => 0#64) i := rfl

/-- One level of the loop keeps the sum of the rows. -/
theorem sat_sumXLoop [NeZero n] : ∀ (fuel : ℕ) (l : List (Shares n ι)), l.length ≤ fuel + 1 →
    SatX (sumXLoop fuel l) fun r => r.length ≤ 1 ∧ (l ≠ [] → r.length = 1) ∧ ∀ i, rowsSum r i = rowsSum l i := by
  intro fuel
  induction fuel with
  | zero =>
    intro l hl
    refine SatX.pure ⟨by omega, fun h => ?_, fun i => rfl⟩
    have := List.length_pos_iff.2 h
    omega
  | succ fuel ih =>
    intro l hl
    unfold sumXLoop
    by_cases h1 : l.length > 1
    swap
    · rw [if_neg h1]
      refine SatX.pure ⟨by omega, fun h => ?_, fun i => rfl⟩
      have := List.length_pos_iff.2 h
      omega
    rw [if_pos h1]
    set extra := if l.length % 2 = 1 then l.take 1 else [] with hextra
    set x := if l.length % 2 = 1 then l.drop 1 else l with hx
    have hsplit : ∀ i, rowsSum l i = rowsSum extra i + rowsSum x i := by
      intro i
      rw [hextra, hx]
      split
      · rw [← rowsSum_append, List.take_append_drop]
      · simp [rowsSum]
    have hlen : x.length = 2 * (x.length / 2) ∧ extra.length + x.length = l.length ∧ extra.length ≤ 1 := by
      rw [hextra, hx]
      split
      · simp only [List.length_drop, List.length_take]; omega
      · simp only [List.length_nil]; omega
    refine SatX.bind (C18_add (takeRows (x.length / 2) 0 x) (takeRows (x.length / 2) (x.length / 2) x)) fun y hy => ?_
    refine (ih _ ?_).mono fun r hr => ⟨hr.1, fun _ => hr.2.1 ?_, fun i => ?_⟩
    · simp only [List.length_append, unstackRows, List.length_ofFn]; omega
    · apply List.ne_nil_of_length_pos
      simp only [List.length_append, unstackRows, List.length_ofFn]; omega
    · rw [hr.2.2 i, hsplit i, rowsSum_append, rowsSum_unstack, rowsSum_eq_sum_getD x]
      rw [BitVec.add_comm]
      congr 1
      conv_rhs => rw [hlen.1, two_mul, Finset.sum_range_add]
      rw [Finset.sum_range, Finset.sum_range, ← Finset.sum_add_distrib]
      refine Finset.sum_congr rfl fun k _ => ?_
      rw [hy, revealX_takeRows, revealX_takeRows, Nat.zero_add]

/-- `sum(0)` of XOR-shared rows. -/
theorem sat_sumX [NeZero n] (l : List (Shares n ι)) (hl : l ≠ []) : SatX (sumX l) fun z => ∀ i, revealX z i = (l.map fun r => revealX r i).sum := by
  refine SatX.bind (sat_sumXLoop l.length l (by omega)) fun r hr => SatX.pure fun i => ?_
  obtain ⟨a, ha⟩ := List.length_eq_one_iff.1 (hr.2.1 hl)
  have := hr.2.2 i
  rw [ha] at this
  simpa [rowsSum, ha] using this

theorem sat_shareRows [NeZero n] (x : Shares n ι) : ∀ l : List (Fin n),
    SatX (shareRows x l) fun rs => rs.length = l.length ∧ ∀ i, rowsSum rs i = (l.map fun p => x p i).sum := by
  intro l
  induction l with
  | nil => exact SatX.pure ⟨rfl, fun i => rfl⟩
  | cons p l ih =>
    refine SatX.bind (sat_encryptX p (x p)) fun r hr => SatX.bind ih fun rs hrs => SatX.pure ⟨by simp [hrs.1], fun i => ?_⟩
    have h2 := hrs.2 i
    rw [rowsSum] at h2
    simp only [rowsSum, List.map_cons, List.sum_cons, hr, h2]

theorem sum_finRange (x : Shares n ι) (i : ι) : ((List.finRange n).map fun p => x p i).sum = reveal x i := by
  rw [reveal_apply, ← List.sum_ofFn, List.ofFn_eq_map]

/-- **C20 (arithmetic to binary).** -/
theorem C20_a2b [NeZero n] (x : Shares n ι) : SatX (a2b x) fun z => ∀ i, revealX z i = reveal x i := by
  refine SatX.bind (sat_shareRows x (List.finRange n)) fun rows hr => (sat_sumX rows ?_).mono fun z hz i => ?_
  · apply List.ne_nil_of_length_pos
    rw [hr.1, List.length_finRange]; exact Nat.pos_of_neZero n
  · rw [hz, ← sum_finRange, ← hr.2 i]; rfl

theorem sat_a2bSeqLoop [NeZero n] (x : Shares n ι) : ∀ (l : List (Fin n)) (acc : Shares n ι),
    SatX (a2bSeqLoop x acc l) fun z => ∀ i, revealX z i = revealX acc i + (l.map fun p => x p i).sum := by
  intro l
  induction l with
  | nil => exact fun acc => SatX.pure fun i => by simp
  | cons p l ih =>
    intro acc
    refine SatX.bind (sat_encryptX p (x p)) fun r hr => SatX.bind (C18_add acc r) fun a ha => (ih a).mono fun z hz i => ?_
    rw [hz, ha, hr, List.map_cons, List.sum_cons, BitVec.add_assoc]

/-- **C20 (arithmetic to binary, the implementation used when memory runs out).** -/
theorem C20_a2b_sequential [NeZero n] (x : Shares n ι) : SatX (a2bSeq x) fun z => ∀ i, revealX z i = reveal x i := by
  unfold a2bSeq
  have hs := fun i => sum_finRange x i
  generalize hl : List.finRange n = l at hs
  cases l with
  | nil =>
    have := congrArg List.length hl
    rw [List.length_finRange] at this
    exact absurd this (NeZero.ne n)
  | cons p l =>
    refine SatX.bind (sat_encryptX p (x p)) fun r hr => (sat_a2bSeqLoop x l r).mono fun z hz i => ?_
    rw [hz, hr, ← hs i, List.map_cons, List.sum_cons]

/-! ## Binary to arithmetic -/

theorem and_one_word (a : I64) : a &&& 1 = boolI64 (a.getLsbD 0) := by
  change a &&& 1#64 = _
  apply BitVec.eq_of_getLsbD_eq
  intro j hj
  rw [BitVec.getLsbD_and]
  cases j with
  | zero => cases h : a.getLsbD 0 <;> simp [boolI64]
  | succ j => cases h : a.getLsbD 0 <;> simp [boolI64]

theorem sum_bits (v : I64) : ∀ k ≤ 64, ∑ j : Fin k, boolI64 (v.getLsbD j) * (1#64 <<< j.val) = BitVec.ofNat 64 (v.toNat % 2 ^ k) := by
  intro k
  induction k with
  | zero => intro _; rw [pow_zero, Nat.mod_one]; rfl
  | succ k ih =>
    intro hk
    rw [Fin.sum_univ_castSucc]
    simp only [Fin.val_castSucc, Fin.val_last]
    rw [ih (by omega), mod_two_pow_succ', BitVec.add_comm, BitVec.ofNat_add]
    congr 1
    rw [BitVec.shiftLeft_eq_mul_twoPow, BitVec.one_mul, BitVec.ofNat_mul, BitVec.mul_comm]
    congr 1
    · apply BitVec.eq_of_toNat_eq; simp [BitVec.toNat_twoPow]
    · rw [BitVec.testBit_toNat]
      cases v.getLsbD k <;> rfl

/-- **C20 (binary to arithmetic).** Converting the lowest `bits` bits keeps the number they stand for, times the quotient of the two scales. -/
theorem C20_b2a [NeZero n] (bits newScale oldScale : ℕ) (hb : bits ≤ 64) (x : Shares n ι) :
    SatX (b2a bits newScale oldScale x) fun z => ∀ i,
      reveal z i = BitVec.ofNat 64 ((revealX x i).toNat % 2 ^ bits) * BitVec.ofNat 64 (newScale / oldScale) := by
  have key : SatX (b2aBits bits x) fun z => ∀ i, reveal z i = BitVec.ofNat 64 ((revealX x i).toNat % 2 ^ bits) := by
    unfold b2aBits
    split
    · rename_i h1
      subst h1
      refine (sat_b2aBit _ (fun i => (revealX x i).getLsbD 0) fun i => ?_).mono fun z hz i => ?_
      · rw [revealX_andPublic, and_one_word]
      · rw [hz, ← sum_bits _ 1 (by omega), Fin.sum_univ_one]
        simp
    · refine SatX.bind (sat_b2aBit _ (fun k : Fin bits × ι => (revealX x k.2).getLsbD k.1) fun k => ?_) fun a ha => SatX.pure fun i => ?_
      · rw [revealX_andPublic, and_one_word]
        congr 1
        have := revealX_rshift x k.1 k.2
        have e : revealX (fun p (k : Fin bits × ι) => rshiftShares x k.1 p k.2) k = revealX (rshiftShares x k.1) k.2 := rfl
        rw [e, this, BitVec.getLsbD_sshiftRight]
        have hk := k.1.isLt
        have : (k.1 : ℕ) + 0 < 64 := by omega
        have h' : ¬ 64 ≤ (k.1 : ℕ) := by omega
        simp [this, h']
      · rw [← sum_bits _ bits hb, reveal_apply, Finset.sum_comm]
        refine Finset.sum_congr rfl fun k _ => ?_
        have : ∑ p, mulInt a (fun k => 1#64 <<< k.1.val) p (k, i) = reveal (mulInt a fun k => 1#64 <<< k.1.val) (k, i) := (reveal_apply _ _).symm
        rw [this, reveal_mulInt, Pi.mul_apply, ha]
  refine SatX.bind key fun a ha => ?_
  refine SatX.pure (Q := fun z => ∀ i, reveal z i = _) fun i => ?_
  rw [reveal_mulInt, Pi.mul_apply, ha]

/-- **C20 (round trip).** To XOR shares and back with all 64 bits, at the same scale. -/
theorem C20_round_trip [NeZero n] (x : Shares n ι) (scale : ℕ) (hs : 0 < scale) :
    SatX (a2b x >>= b2a 64 scale scale) fun z => ∀ i, reveal z i = reveal x i := by
  refine SatX.bind (C20_a2b x) fun y hy => (C20_b2a 64 scale scale le_rfl y).mono fun z hz i => ?_
  rw [hz, hy, Nat.div_self hs, Nat.mod_eq_of_lt (reveal x i).isLt, BitVec.ofNat_toNat, BitVec.setWidth_eq]
  exact BitVec.mul_one _

/-- **C20 (round trip, other direction).** -/
theorem C20_round_trip_binary [NeZero n] (x : Shares n ι) (scale : ℕ) (hs : 0 < scale) :
    SatX (b2a 64 scale scale x >>= a2b) fun z => ∀ i, revealX z i = revealX x i := by
  refine SatX.bind (C20_b2a 64 scale scale le_rfl x) fun y hy => (C20_a2b y).mono fun z hz i => ?_
  rw [hz, hy, Nat.div_self hs, Nat.mod_eq_of_lt (revealX x i).isLt, BitVec.ofNat_toNat, BitVec.setWidth_eq]
  exact BitVec.mul_one _

/-- Three parties; the conversion of actual shares of 5 with an actual tuple stream. -/
example : ∃ (T : Tuples 3) (x : Shares 3 Unit), T.Valid ∧ reveal x () = 5 ∧ x 0 () = 9 ∧ revealX (a2b x T 7).val () = 5 := by
  obtain ⟨T, hT, -⟩ := tuples_exist 3
  have hx : reveal (fun p _ => ![9, -3, -1] p : Shares 3 Unit) () = 5 := by rw [reveal_apply]; decide
  exact ⟨T, fun p _ => ![9, -3, -1] p, hT, hx, rfl, by rw [(C20_a2b _ T hT 7).2, hx]⟩

end CrypTen

import Verif.Model.Maximum
import Verif.Spec.Sampling
import Verif.Props.Logic
import Mathlib.Algebra.Order.BigOperators.Group.Finset
import Mathlib.Order.Interval.Finset.Nat

/-!
# C52: random numbers, Bernoulli and weighted sampling
-/

namespace CrypTen
variable {n : ℕ} {ι κ : Type}

/-- The number drawn: the XOR of what the parties draw. -/
def drawn [NeZero n] (T : Tuples n) (c p : ℕ) (κ : Type) (k : κ) : ℕ := (revealX (T.kbit c p κ) k).toNat

theorem xorList_lt (p : ℕ) : ∀ l : List I64, (∀ a ∈ l, a.toNat < 2 ^ p) → (xorList l).toNat < 2 ^ p := by
  intro l
  induction l with
  | nil => intro _; show (0#64).toNat < _; exact Nat.two_pow_pos p
  | cons a l ih =>
    intro h
    show (a ^^^ xorList l).toNat < _
    rw [BitVec.toNat_xor]
    exact Nat.xor_lt_two_pow (h a (by simp)) (ih fun b hb => h b (by simp [hb]))

theorem drawn_lt [NeZero n] (T : Tuples n) (hT : T.Valid) (c p : ℕ) (k : κ) : drawn T c p κ k < 2 ^ p := by
  unfold drawn revealX
  apply xorList_lt
  intro a ha
  obtain ⟨q, rfl⟩ := (List.mem_ofFn).1 ha
  exact hT.kbit c p κ q k

theorem rand_word [NeZero n] (p : ℕ) (hp : p ≤ 64) (T : Tuples n) (hT : T.Valid) (c : ℕ) :
    (mpcRand p κ T c).good ∧ (mpcRand p κ T c).val.scale = 2 ^ p ∧
    ∀ k, reveal (mpcRand p κ T c).val.share k = BitVec.ofNat 64 (drawn T c p κ k) := by
  have h := C20_b2a p (2 ^ p) (2 ^ p) hp (T.kbit c p κ) T hT (c + 1)
  refine ⟨⟨trivial, h.1, trivial⟩, rfl, fun k => ?_⟩
  refine (h.2 k).trans ?_
  rw [Nat.div_self (Nat.two_pow_pos p), Nat.mod_eq_of_lt (show (revealX (T.kbit c p κ) k).toNat < 2 ^ p from drawn_lt T hT c p k)]
  exact BitVec.mul_one _

/-- **C52 (`rand`: value).** `rand` returns `R / 2^p` where `R` is the XOR of the parties' draws; it lies in `[0, 1)`. -/
theorem C52_rand_value [NeZero n] (p : ℕ) (_hp0 : 0 < p) (hp : p ≤ 62) (T : Tuples n) (hT : T.Valid) (c : ℕ) (k : κ) :
    (mpcRand p κ T c).val.value k = (drawn T c p κ k : ℚ) / 2 ^ p ∧ 0 ≤ (mpcRand p κ T c).val.value k ∧ (mpcRand p κ T c).val.value k < 1 := by
  obtain ⟨-, h1, h2⟩ := rand_word p (by omega) T hT c (κ := κ)
  have hd := drawn_lt T hT c p k
  have hp2 : (2 : ℕ) ^ p ≤ 2 ^ 62 := Nat.pow_le_pow_right (by norm_num) hp
  have hv : (mpcRand p κ T c).val.value k = (drawn T c p κ k : ℚ) / 2 ^ p := by
    rw [AST.value, h2, h1]
    have : (BitVec.ofNat 64 (drawn T c p κ k)).toInt = drawn T c p κ k := by
      rw [BitVec.toInt_eq_toNat_of_lt] <;> rw [BitVec.toNat_ofNat, Nat.mod_eq_of_lt] <;> omega
    rw [this]; push_cast; rfl
  refine ⟨hv, ?_, ?_⟩
  · rw [hv]; positivity
  · rw [hv, div_lt_one (by positivity)]; exact_mod_cast hd

/-- **C52 (`rand`: uniform).** Whatever the other parties draw, the number drawn is a bijective function of the draw of any one party: if that party's
draw is uniform, so is the result, and nobody else can bias it. -/
theorem C52_rand_uniform [NeZero n] (p : ℕ) (hp : p ≤ 64) (draws : Fin n → I64) (q : Fin n) (hd : ∀ r, (draws r).toNat < 2 ^ p) (R : ℕ) (hR : R < 2 ^ p) :
    ∃! v : I64, v.toNat < 2 ^ p ∧ (revealX (fun r (_ : Unit) => if r = q then v else draws r) ()).toNat = R := by
  have key : ∀ v : I64, revealX (fun r (_ : Unit) => if r = q then v else draws r) () = v ^^^ revealX (fun r (_ : Unit) => if r = q then 0#64 else draws r) () := by
    intro v
    have e := xsum_xor (fun r => if r = q then v else 0#64) (fun r => if r = q then 0#64 else draws r)
    rw [xsum_single] at e
    rw [revealX_apply, revealX_apply, ← e]
    congr 1; funext r; by_cases h : r = q <;> simp [h]
  have hrest : (revealX (fun r (_ : Unit) => if r = q then 0#64 else draws r) ()).toNat < 2 ^ p := by
    unfold revealX
    apply xorList_lt
    intro a ha
    obtain ⟨r, rfl⟩ := (List.mem_ofFn).1 ha
    by_cases h : r = q
    · simp only [h, if_true]; exact Nat.two_pow_pos p
    · simp only [h, if_false]; exact hd r
  generalize revealX (fun r (_ : Unit) => if r = q then 0#64 else draws r) () = c at *
  have hR64 : R < 2 ^ 64 := lt_of_lt_of_le hR (Nat.pow_le_pow_right (by norm_num) hp)
  have hRn : (BitVec.ofNat 64 R).toNat = R := by rw [BitVec.toNat_ofNat, Nat.mod_eq_of_lt hR64]
  refine ⟨BitVec.ofNat 64 R ^^^ c, ⟨?_, ?_⟩, ?_⟩
  · rw [BitVec.toNat_xor, hRn]; exact Nat.xor_lt_two_pow hR hrest
  · rw [key, BitVec.xor_assoc, BitVec.xor_self, BitVec.xor_zero, hRn]
  · rintro v ⟨-, hv⟩
    rw [key] at hv
    have : v ^^^ c = BitVec.ofNat 64 R := BitVec.eq_of_toNat_eq (hv.trans hRn.symm)
    rw [← this, BitVec.xor_assoc, BitVec.xor_self, BitVec.xor_zero]

/-- **C52 (`bernoulli`).** Entry `k` is 1 exactly if its probability exceeds `R / 2^p`. -/
theorem C52_bernoulli [NeZero n] (p : ℕ) (hp0 : 0 < p) (hp : p ≤ 61) (x : AST n κ) (hx : x.scale = 2 ^ p) (h01 : ∀ k, 0 ≤ x.value k ∧ x.value k ≤ 1)
    (T : Tuples n) (hT : T.Valid) (c : ℕ) (k : κ) :
    (x.bernoulli p T c).good ∧ (x.bernoulli p T c).val.value k = if (drawn T c p κ k : ℚ) < 2 ^ p * x.value k then 1 else 0 := by
  obtain ⟨g1, h1, h2⟩ := rand_word p (by omega) T hT c (κ := κ)
  have hv := fun k => C52_rand_value p hp0 (by omega) T hT c (κ := κ) k
  have hpow : ((2 : ℕ) ^ p : ℚ) ≤ 2 ^ 61 := by
    push_cast; exact pow_le_pow_right₀ (by norm_num) hp
  have hpos : (0 : ℚ) < 2 ^ p := by positivity
  have h := C21_gt_partial (D := 2 ^ p) (Nat.two_pow_pos p) x (Or.inr hx) (.enc (mpcRand p κ T c).val) (Or.inr h1) (fun k => by
    have e : (Operand.enc (mpcRand p κ T c).val).jointScale x.scale = 2 ^ p := by simp only [Operand.jointScale]; rw [h1, hx, max_self]
    rw [e]
    obtain ⟨-, h3, h4⟩ := hv k
    have h5 := h01 k
    show Fits (_ * ((mpcRand p κ T c).val.value k - x.value k))
    push_cast at hpow ⊢
    constructor <;> nlinarith) T hT (mpcRand p κ T c).ctr
  refine ⟨⟨g1, h.1⟩, ?_⟩
  refine (h.2.2 k).trans ?_
  show (if (mpcRand p κ T c).val.value k < x.value k then (1 : ℚ) else 0) = _
  rw [(hv k).1]
  congr 1
  rw [eq_iff_iff, div_lt_iff₀ hpos, mul_comm]

/-! ## Weighted sampling -/

section
variable {m : ℕ} (W : Fin m → ℕ)

theorem below_zero : below W 0 = 0 := by simp [below]

theorem below_mono {a b : ℕ} (h : a ≤ b) : below W a ≤ below W b := by
  unfold below
  refine Finset.sum_le_sum fun i _ => ?_
  split <;> split <;> first | omega | simp

theorem below_succ (j : Fin m) : below W (j + 1) = below W j + W j := by
  unfold below
  have : ∀ i : Fin m, (if i.val < j.val + 1 then W i else 0) = (if i.val < j.val then W i else 0) + if i = j then W i else 0 := by
    intro i
    by_cases h : i = j
    · subst h; simp
    · have : i.val ≠ j.val := fun e => h (Fin.ext e)
      by_cases h2 : i.val < j.val
      · simp [h, h2, Nat.lt_succ_of_lt h2]
      · simp [h, h2]; omega
  simp only [this]
  rw [Finset.sum_add_distrib, Finset.sum_ite_eq' Finset.univ j]; simp

theorem below_top : below W m = ∑ i, W i := by
  unfold below
  exact Finset.sum_congr rfl fun i _ => by simp

/-- **C52 (weighted sampling is one-hot).** Exactly one index is chosen, and it has positive weight. -/
theorem chosen_unique {N R : ℕ} (hR : R < N) (hW : 0 < ∑ i, W i) : (∃! j, Chosen W N R j) ∧ ∀ j, Chosen W N R j → 0 < W j := by
  have hpos : ∀ j, Chosen W N R j → 0 < W j := by
    intro j hj
    by_contra h0
    have : below W (j + 1) = below W j := by rw [below_succ]; omega
    have h1 := hj.1; have h2 := hj.2
    rw [this] at h2; omega
  refine ⟨?_, hpos⟩
  have hex : ∀ t ≤ m, R * below W m < N * below W t → ∃ j : Fin m, Chosen W N R j := by
    intro t
    induction t with
    | zero => intro _ h; rw [below_zero] at h; omega
    | succ t ih =>
      intro ht h
      by_cases h' : R * below W m < N * below W t
      · exact ih (by omega) h'
      · exact ⟨⟨t, by omega⟩, not_lt.1 h', h⟩
  obtain ⟨j, hj⟩ := hex m le_rfl (Nat.mul_lt_mul_of_lt_of_le hR le_rfl (by rw [below_top]; exact hW))
  refine ⟨j, hj, fun i hi => ?_⟩
  apply Fin.ext
  by_contra hne
  rcases lt_or_gt_of_ne hne with hlt | hlt
  · have := Nat.mul_le_mul_left N (below_mono W (a := i + 1) (b := j) hlt)
    have h1 := hj.1; have h2 := hi.2; omega
  · have := Nat.mul_le_mul_left N (below_mono W (a := j + 1) (b := i) hlt)
    have h1 := hi.1; have h2 := hj.2; omega

/-- The number of `R` with `a ≤ R * C < b` differs from `(b - a) / C` by less than one. -/
theorem count_between (C a b N : ℕ) (hC : 0 < C) (hab : a ≤ b) (hb : b ≤ N * C) :
    b < a + C * ((Finset.range N).filter fun R => a ≤ R * C ∧ R * C < b).card + C ∧
    C * ((Finset.range N).filter fun R => a ≤ R * C ∧ R * C < b).card < b - a + C := by
  have ceil : ∀ x R : ℕ, x ≤ R * C ↔ (x + C - 1) / C ≤ R := by
    intro x R
    rw [Nat.div_le_iff_le_mul_add_pred hC]
    rw [mul_comm C R]; omega
  have hset : ((Finset.range N).filter fun R => a ≤ R * C ∧ R * C < b) = Finset.Ico ((a + C - 1) / C) ((b + C - 1) / C) := by
    ext R
    rw [Finset.mem_filter, Finset.mem_range, Finset.mem_Ico, ceil, ← not_le, ← not_le, ceil b R]
    constructor
    · rintro ⟨_, h1, h2⟩; exact ⟨h1, by omega⟩
    · rintro ⟨h1, h2⟩
      refine ⟨?_, h1, by omega⟩
      have : (b + C - 1) / C ≤ N := (ceil b N).1 hb
      omega
  rw [hset, Nat.card_Ico]
  have d1 := Nat.div_add_mod (a + C - 1) C
  have d2 := Nat.div_add_mod (b + C - 1) C
  have m1 := Nat.mod_lt (a + C - 1) hC
  have m2 := Nat.mod_lt (b + C - 1) hC
  have hle : (a + C - 1) / C ≤ (b + C - 1) / C := Nat.div_le_div_right (by omega)
  have : C * ((b + C - 1) / C - (a + C - 1) / C) = C * ((b + C - 1) / C) - C * ((a + C - 1) / C) := Nat.mul_sub _ _ _
  have hle' := Nat.mul_le_mul_left C hle
  rw [this]
  omega

/-- **C52 (weighted sampling: probabilities).** Among the `N = 2^p` equally likely random numbers, the number of those that choose index `j` differs from
`N * W j / total` by less than one. -/
theorem C52_weighted_probability {N : ℕ} (hW : 0 < ∑ i, W i) (j : Fin m) :
    |((((Finset.range N).filter fun R => Chosen W N R j).card : ℕ) : ℤ) * (∑ i, W i : ℕ) - N * W j| < (∑ i, W i : ℕ) := by
  have hb := Nat.mul_le_mul_left N (below_mono W (a := j + 1) (b := m) j.isLt)
  have ha := Nat.mul_le_mul_left N (below_mono W (a := j) (b := j + 1) (by omega))
  have h := count_between (below W m) (N * below W j) (N * below W (j + 1)) N (by rw [below_top]; exact hW) ha hb
  have e : ((Finset.range N).filter fun R => Chosen W N R j) = (Finset.range N).filter fun R => N * below W j ≤ R * below W m ∧ R * below W m < N * below W (j + 1) := rfl
  rw [e, ← below_top]
  rw [below_succ] at h ⊢
  generalize ((Finset.range N).filter fun R => N * below W j ≤ R * below W m ∧ R * below W m < N * (below W j + W j)).card = q at *
  rw [mul_add, Nat.add_sub_cancel_left] at h
  rw [mul_comm (q : ℤ)]
  rw [abs_lt]
  have h1 := h.1; have h2 := h.2
  zify at h1 h2
  constructor <;> linarith

end

theorem reveal_cumsum {m : ℕ} (w : AST n (Fin m × κ)) (W : Fin m → κ → ℕ) (hw : ∀ j k, reveal w.share (j, k) = BitVec.ofNat 64 (W j k)) (j : Fin m) (k : κ) :
    reveal w.cumsum.share (j, k) = BitVec.ofNat 64 (below (fun i => W i k) (j + 1)) := by
  have e : reveal w.cumsum.share (j, k) = ∑ i : Fin m, if i ≤ j then reveal w.share (i, k) else 0 := by
    simp only [AST.cumsum, reveal_apply]
    rw [Finset.sum_comm]
    refine Finset.sum_congr rfl fun i _ => ?_
    by_cases h : i ≤ j <;> simp [h]
  rw [e]
  have cast : ∀ s : Finset (Fin m), ∑ i ∈ s, (if i ≤ j then reveal w.share (i, k) else 0) = BitVec.ofNat 64 (∑ i ∈ s, if i.val < j.val + 1 then W i k else 0) := by
    intro s
    induction s using Finset.cons_induction with
    | empty => rfl
    | cons a s ha ih =>
      rw [Finset.sum_cons, Finset.sum_cons, ih, BitVec.ofNat_add]
      congr 1
      have : a ≤ j ↔ a.val < j.val + 1 := by rw [Nat.lt_succ_iff, Fin.le_def]
      by_cases h : a ≤ j
      · rw [if_pos h, if_pos (this.1 h), hw]
      · rw [if_neg h, if_neg (fun h' => h (this.2 h'))]; rfl
  exact cast Finset.univ

theorem value_of_nat {x : AST n ι} {i : ι} {v : ℕ} (hs : x.scale = 1) (hw : reveal x.share i = BitVec.ofNat 64 v) (hv : v < 2 ^ 63) : x.value i = v := by
  rw [AST.value, hw, hs]
  have : (BitVec.ofNat 64 v).toInt = v := by
    rw [BitVec.toInt_eq_toNat_of_lt] <;> rw [BitVec.toNat_ofNat, Nat.mod_eq_of_lt] <;> omega
  rw [this]; push_cast; ring

/-- `weighted_index` for given integer weights (unscaled, as the results of comparisons are) and a given random number `R / 2^p`. -/
theorem sat_weightedIndexWith [NeZero n] (p : ℕ) (hp : p ≤ 62) {m : ℕ} (w : AST n (Fin m × κ)) (hs : w.scale = 1) (W : Fin m → κ → ℕ)
    (hw : ∀ j k, reveal w.share (j, k) = BitVec.ofNat 64 (W j k)) (hfit : ∀ k, 2 ^ p * (∑ j, W j k) < 2 ^ 63)
    (u : AST n κ) (hus : u.scale = 2 ^ p) (R : κ → ℕ) (hR : ∀ k, R k < 2 ^ p) (hu : ∀ k, reveal u.share k = BitVec.ofNat 64 (R k)) :
    SatX (w.weightedIndexWith p u) fun z => IsBit z fun jk => decide (Chosen (fun j => W j jk.2) (2 ^ p) (R jk.2) jk.1) := by
  have hpw : ∀ k, ∑ j, W j k < 2 ^ 63 := fun k => lt_of_le_of_lt (Nat.le_mul_of_pos_left _ (Nat.two_pow_pos p)) (hfit k)
  have hbelow : ∀ k (t : ℕ), below (fun j => W j k) t ≤ ∑ j, W j k := by
    intro k t
    rcases le_total t m with h | h
    · exact (below_mono _ h).trans_eq (below_top _)
    · unfold below; refine Finset.sum_le_sum fun i _ => ?_; split <;> simp
  have hcum : ∀ j k, w.cumsum.value (j, k) = (below (fun i => W i k) (j + 1) : ℕ) := fun j k =>
    value_of_nat (x := w.cumsum) hs (reveal_cumsum w W hw j k) (lt_of_le_of_lt (hbelow k _) (hpw k))
  have hlast : ∀ k, w.cumsum.lastRow.value k = (∑ j, W j k : ℕ) := by
    intro k
    refine value_of_nat (x := w.cumsum.lastRow) hs ?_ (hpw k)
    rw [← below_top]
    by_cases h0 : 0 < m
    · have e : reveal w.cumsum.lastRow.share k = reveal w.cumsum.share (⟨m - 1, by omega⟩, k) := by
        simp only [AST.lastRow, reveal_apply, dif_pos h0]
      rw [e, reveal_cumsum w W hw]
      congr 2
      show m - 1 + 1 = m
      omega
    · have : m = 0 := by omega
      subst this
      simp only [AST.lastRow, reveal_apply]
      rw [below_zero]; simp
  have hpow : (2 : ℕ) ^ p ≤ 2 ^ 62 := Nat.pow_le_pow_right (by norm_num) hp
  have hQ : (0 : ℚ) < 2 ^ p := by positivity
  have huv : ∀ k, u.value k = (R k : ℚ) / 2 ^ p := by
    intro k
    have h1 := hR k
    rw [AST.value, hu, hus]
    have : (BitVec.ofNat 64 (R k)).toInt = R k := by
      rw [BitVec.toInt_eq_toNat_of_lt] <;> rw [BitVec.toNat_ofNat, Nat.mod_eq_of_lt] <;> omega
    rw [this]; push_cast; rfl
  have hlt : ∀ k, R k * (∑ j, W j k) ≤ 2 ^ p * ∑ j, W j k := fun k => Nat.mul_le_mul_right _ (hR k).le
  have hls : w.cumsum.lastRow.scale = 1 := hs
  have hcs : w.cumsum.scale = 1 := hs
  refine SatX.bind (C56_mul_unscaled (elementwise κ) u w.cumsum.lastRow (by rw [hus]; exact Nat.two_pow_pos p) (by rw [hls]; norm_num) (Or.inr hls) fun k => ?_) fun r hr => ?_
  · rw [bilinearQ_elementwise, hus, hls, huv, hlast]
    have e : (((2 ^ p : ℕ) : ℚ) * ((1 : ℕ) : ℚ) * ((R k : ℚ) / 2 ^ p * ((∑ j, W j k : ℕ) : ℚ))) = ((R k * ∑ j, W j k : ℕ) : ℚ) := by
      push_cast; field_simp
    rw [e]
    have h1 := hlt k; have h2 := hfit k
    have h3 : R k * ∑ j, W j k < 2 ^ 63 := by omega
    constructor
    · have : (0 : ℚ) ≤ ((R k * ∑ j, W j k : ℕ) : ℚ) := Nat.cast_nonneg _
      linarith
    · exact_mod_cast h3
  have hrs : r.scale = 2 ^ p := by rw [hr.1, hus, hls, mul_one]
  have hrv : ∀ k, r.value k = (R k : ℚ) / 2 ^ p * (∑ j, W j k : ℕ) := fun k => by rw [hr.2, bilinearQ_elementwise, huv, hlast]
  have hstd : StdScale (2 ^ p) (r.reindex (Prod.snd : Fin m × κ → κ)).scale := Or.inr hrs
  refine SatX.bind (sat_gt_bit (Nat.two_pow_pos p) w.cumsum (Or.inl hcs) (.enc (r.reindex Prod.snd)) hstd fun jk => ?_) fun g hg => ?_
  · have e : (Operand.enc (r.reindex (Prod.snd : Fin m × κ → κ))).jointScale w.cumsum.scale = 2 ^ p := by
      show max w.cumsum.scale r.scale = 2 ^ p
      rw [hcs, hrs]; exact max_eq_right (Nat.two_pow_pos p)
    rw [e]
    obtain ⟨j, k⟩ := jk
    show Fits (_ * ((r.reindex Prod.snd).value (j, k) - _))
    rw [value_reindex, hrv, hcum]
    have e2 : (((2 ^ p : ℕ) : ℚ) * ((R k : ℚ) / 2 ^ p * ((∑ j, W j k : ℕ) : ℚ) - (below (fun i => W i k) (j + 1) : ℕ)))
        = ((R k * ∑ j, W j k : ℕ) : ℚ) - ((2 ^ p * below (fun i => W i k) (j + 1) : ℕ) : ℚ) := by push_cast; field_simp
    rw [e2]
    have h1 := hlt k; have h2 := hfit k
    have h3 : R k * ∑ j, W j k < 2 ^ 63 := by omega
    have h4 : 2 ^ p * below (fun i => W i k) (j + 1) < 2 ^ 63 := lt_of_le_of_lt (Nat.mul_le_mul_left _ (hbelow k _)) h2
    have h3' : ((R k * ∑ j, W j k : ℕ) : ℚ) < 2 ^ 63 := by exact_mod_cast h3
    have h4' : ((2 ^ p * below (fun i => W i k) (j + 1) : ℕ) : ℚ) < 2 ^ 63 := by exact_mod_cast h4
    have p1 : (0 : ℚ) ≤ ((R k * ∑ j, W j k : ℕ) : ℚ) := Nat.cast_nonneg _
    have p2 : (0 : ℚ) ≤ ((2 ^ p * below (fun i => W i k) (j + 1) : ℕ) : ℚ) := Nat.cast_nonneg _
    constructor <;> linarith
  have hgb : ∀ j k, reveal g.share (j, k) = boolI64 (decide (R k * (∑ i, W i k) < 2 ^ p * below (fun i => W i k) (j + 1))) := by
    intro j k
    rw [hg.2]
    congr 1
    rw [decide_eq_decide]
    show (r.reindex Prod.snd).value (j, k) < _ ↔ _
    rw [value_reindex, hrv, hcum]
    have e2 : (R k : ℚ) / 2 ^ p * ((∑ j, W j k : ℕ) : ℚ) = ((R k * ∑ j, W j k : ℕ) : ℚ) / 2 ^ p := by push_cast; ring
    rw [e2, div_lt_iff₀ hQ, mul_comm _ ((2 : ℚ) ^ p)]
    constructor <;> intro h <;> exact_mod_cast h
  refine (sub_word_same g g.shiftDown rfl (by rw [hg.1]; norm_num)).mono fun z hz => ⟨hz.1.trans hg.1, fun jk => ?_⟩
  obtain ⟨j, k⟩ := jk
  rw [hz.2, hgb]
  have hsh : reveal g.shiftDown.share (j, k) = boolI64 (decide (R k * (∑ i, W i k) < 2 ^ p * below (fun i => W i k) j)) := by
    by_cases h0 : j.val = 0
    · have e : reveal g.shiftDown.share (j, k) = 0 := by
        simp only [AST.shiftDown, reveal_apply, dif_pos h0]; simp
      rw [e, h0, below_zero]; simp; rfl
    · have e : reveal g.shiftDown.share (j, k) = reveal g.share (⟨j.val - 1, by omega⟩, k) := by
        simp only [AST.shiftDown, reveal_apply, dif_neg h0]
      rw [e, hgb]
      have : j.val - 1 + 1 = j.val := by omega
      simp only [this]
  rw [hsh]
  have hmono := Nat.mul_le_mul_left (2 ^ p) (below_mono (fun i => W i k) (a := j) (b := j + 1) (by omega))
  have hch : Chosen (fun i => W i k) (2 ^ p) (R k) j ↔ 2 ^ p * below (fun i => W i k) j ≤ R k * (∑ i, W i k) ∧ R k * (∑ i, W i k) < 2 ^ p * below (fun i => W i k) (j + 1) := by
    unfold Chosen; rw [below_top]
  beta_reduce
  by_cases h1 : R k * (∑ i, W i k) < 2 ^ p * below (fun i => W i k) j
  · have h2 : R k * (∑ i, W i k) < 2 ^ p * below (fun i => W i k) (j + 1) := by omega
    have h3 : ¬ Chosen (fun i => W i k) (2 ^ p) (R k) j := by rw [hch]; omega
    rw [decide_eq_true h1, decide_eq_true h2, decide_eq_false h3]; rfl
  · by_cases h2 : R k * (∑ i, W i k) < 2 ^ p * below (fun i => W i k) (j + 1)
    · have h3 : Chosen (fun i => W i k) (2 ^ p) (R k) j := by rw [hch]; omega
      rw [decide_eq_false h1, decide_eq_true h2, decide_eq_true h3]; rfl
    · have h3 : ¬ Chosen (fun i => W i k) (2 ^ p) (R k) j := by rw [hch]; omega
      rw [decide_eq_false h1, decide_eq_false h2, decide_eq_false h3]; rfl

/-- **C52 (`weighted_index`).** For unscaled integer weights the result is one-hot along the dimension, at the index that the random number chooses
(`Chosen`; `chosen_unique` shows that there is exactly one and that its weight is positive, `C52_weighted_probability` gives the probabilities). -/
theorem C52_weighted_index [NeZero n] (p : ℕ) (hp : p ≤ 62) {m : ℕ} (w : AST n (Fin m × κ)) (hs : w.scale = 1) (W : Fin m → κ → ℕ)
    (hw : ∀ j k, w.value (j, k) = W j k) (hfit : ∀ k, 2 ^ p * (∑ j, W j k) < 2 ^ 63) (T : Tuples n) (hT : T.Valid) (c : ℕ) :
    (w.weightedIndex p T c).good ∧ (w.weightedIndex p T c).val.scale = 1 ∧ ∀ j k,
      (w.weightedIndex p T c).val.value (j, k) = if Chosen (fun j => W j k) (2 ^ p) (drawn T c p κ k) j then 1 else 0 := by
  obtain ⟨g1, h1, h2⟩ := rand_word p (by omega) T hT c (κ := κ)
  have hww : ∀ j k, reveal w.share (j, k) = BitVec.ofNat 64 (W j k) := by
    intro j k
    have h := word_eq_value (x := w) (by rw [hs]; norm_num) (j, k)
    rw [hs, hw] at h
    have h' : (reveal w.share (j, k)).toInt = W j k := by
      have : ((1 : ℕ) : ℚ) * ((W j k : ℕ) : ℚ) = ((W j k : ℤ) : ℚ) := by push_cast; ring
      rw [this] at h; exact_mod_cast h
    have e := ofInt_toInt (reveal w.share (j, k))
    rw [h'] at e
    rw [← e]; rfl
  have h := sat_weightedIndexWith p hp w hs W hww hfit (mpcRand p κ T c).val h1 _ (fun k => drawn_lt T hT c p k) h2 T hT (mpcRand p κ T c).ctr
  refine ⟨⟨g1, h.1⟩, h.2.1, fun j k => ?_⟩
  refine (h.2.value (j, k)).trans ?_
  simp only [decide_eq_true_eq]

/-- The same for every run: some random number below `2^p` is used. -/
theorem sat_weightedIndex [NeZero n] (p : ℕ) (hp : p ≤ 62) {m : ℕ} (w : AST n (Fin m × κ)) (hs : w.scale = 1) (W : Fin m → κ → ℕ)
    (hw : ∀ j k, w.value (j, k) = W j k) (hfit : ∀ k, 2 ^ p * (∑ j, W j k) < 2 ^ 63) :
    SatX (w.weightedIndex p) fun z => z.scale = 1 ∧ ∃ R : κ → ℕ, (∀ k, R k < 2 ^ p) ∧ ∀ j k,
      z.value (j, k) = if Chosen (fun j => W j k) (2 ^ p) (R k) j then 1 else 0 := fun T hT c => by
  have h := C52_weighted_index p hp w hs W hw hfit T hT c
  exact ⟨h.1, h.2.1, fun k => drawn T c p κ k, fun k => drawn_lt T hT c p k, h.2.2⟩

/-- Weights 1, 0, 3: index 1 is never chosen, the others are. -/
example : Chosen ![1, 0, 3] 16 3 0 ∧ Chosen ![1, 0, 3] 16 4 2 ∧ ¬ Chosen ![1, 0, 3] 16 4 1 := by decide +kernel

example : ((Finset.range 16).filter fun R => Chosen ![1, 0, 3] 16 R 2).card = 12 := by decide +kernel

/-- Three parties, an actual stream: the hypotheses of the run theorems are met. -/
example : ∃ (T : Tuples 3) (w : AST 3 (Fin 2 × Unit)), T.Valid ∧ (w.weightedIndex 16 T 5).val.value (0, ()) + (w.weightedIndex 16 T 5).val.value (1, ()) = 1 := by
  obtain ⟨T, hT, -⟩ := tuples_exist 3
  let w : AST 3 (Fin 2 × Unit) := holder 3 (Fin 2 × Unit) 1 1
  have hw : ∀ j k, w.value (j, k) = ((fun _ _ => 1 : Fin 2 → Unit → ℕ) j k : ℕ) := fun j k => by
    rw [holder_value _ _ 1 (by decide)]; norm_num
  have h := C52_weighted_index 16 (by norm_num) w rfl (fun _ _ => 1) hw (by intro k; decide) T hT 5
  refine ⟨T, w, hT, ?_⟩
  rw [h.2.2, h.2.2]
  obtain ⟨⟨j, hj, hu⟩, -⟩ := chosen_unique (fun _ : Fin 2 => 1) (drawn_lt T hT 5 16 ()) (by decide)
  have hj2 : j = 0 ∨ j = 1 := by omega
  rcases hj2 with rfl | rfl
  · have : ¬ Chosen (fun _ : Fin 2 => 1) (2 ^ 16) (drawn T 5 16 Unit ()) 1 := fun h' => absurd (hu _ h') (by decide)
    rw [if_pos hj, if_neg this]; norm_num
  · have : ¬ Chosen (fun _ : Fin 2 => 1) (2 ^ 16) (drawn T 5 16 Unit ()) 0 := fun h' => absurd (hu _ h') (by decide)
    rw [if_neg this, if_pos hj]; norm_num

end CrypTen

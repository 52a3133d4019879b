import Verif.Props.Sampling
import Mathlib.Order.Bounds.Basic

/-!
# C24, C25: maximum and argmax, exact products (C28 for unscaled tensors)
-/

namespace CrypTen
variable {n : ℕ} {ι κ : Type}

/-! ## Rows -/

/-- The values, in column `k`, of a list of rows. -/
def rowValues (l : List (Shares n κ)) (s : ℕ) (k : κ) : Set ℚ := {u | ∃ r ∈ l, u = ((reveal r k).toInt : ℚ) / s}

theorem rowValues_append (l l' : List (Shares n κ)) (s : ℕ) (k : κ) : rowValues (l ++ l') s k = rowValues l s k ∪ rowValues l' s k := by
  ext u
  simp only [rowValues, List.mem_append, Set.mem_union]
  constructor
  · rintro ⟨r, h | h, e⟩
    · exact Or.inl ⟨r, h, e⟩
    · exact Or.inr ⟨r, h, e⟩
  · rintro (⟨r, h, e⟩ | ⟨r, h, e⟩)
    · exact ⟨r, Or.inl h, e⟩
    · exact ⟨r, Or.inr h, e⟩

theorem rowValues_unstack {m : ℕ} (x : AST n (Fin m × κ)) (k : κ) : rowValues (unstackRows x.share) x.scale k = Set.range fun j => x.value (j, k) := by
  ext u
  constructor
  · rintro ⟨r, hr, rfl⟩
    obtain ⟨j, rfl⟩ := (List.mem_ofFn).1 hr
    exact ⟨j, by simp only [AST.value, reveal_apply]⟩
  · rintro ⟨j, rfl⟩
    exact ⟨_, (List.mem_ofFn).2 ⟨j, rfl⟩, by simp only [AST.value, reveal_apply]⟩

theorem rowValues_getD (l : List (Shares n κ)) (s : ℕ) (k : κ) (j : ℕ) (hj : j < l.length) :
    ((reveal (l.getD j fun _ _ => 0#64) k).toInt : ℚ) / s ∈ rowValues l s k := by
  refine ⟨_, ?_, rfl⟩
  rw [List.getD_eq_getElem _ _ hj]; exact List.getElem_mem hj

theorem mem_rowValues_iff (l : List (Shares n κ)) (s : ℕ) (k : κ) (u : ℚ) :
    u ∈ rowValues l s k ↔ ∃ j < l.length, u = ((reveal (l.getD j fun _ _ => 0#64) k).toInt : ℚ) / s := by
  constructor
  · rintro ⟨r, hr, rfl⟩
    obtain ⟨j, hj, rfl⟩ := List.getElem_of_mem hr
    exact ⟨j, hj, by rw [List.getD_eq_getElem _ _ hj]⟩
  · rintro ⟨j, hj, rfl⟩
    exact rowValues_getD l s k j hj

theorem stackAST_value (l : List (Shares n κ)) (s : ℕ) (j : Fin l.length) (k : κ) :
    (stackAST l s).value (j, k) = ((reveal (l.getD j fun _ _ => 0#64) k).toInt : ℚ) / s := by
  simp only [AST.value, stackAST, takeRows, reveal_apply, Nat.zero_add]

theorem range_stackAST (l : List (Shares n κ)) (s : ℕ) (k : κ) : (Set.range fun j => (stackAST l s).value (j, k)) = rowValues l s k := by
  ext u
  rw [mem_rowValues_iff]
  constructor
  · rintro ⟨j, rfl⟩; exact ⟨j, j.isLt, stackAST_value l s j k⟩
  · rintro ⟨j, hj, rfl⟩; exact ⟨⟨j, hj⟩, stackAST_value l s ⟨j, hj⟩ k⟩

/-! ## Products of bits -/

/-- Product of the revealed words, in column `k`. -/
def rowsProd (l : List (Shares n κ)) (k : κ) : I64 := (l.map fun r => reveal r k).prod

theorem rowsProd_append (l l' : List (Shares n κ)) (k : κ) : rowsProd (l ++ l') k = rowsProd l k * rowsProd l' k := by
  simp [rowsProd]

theorem rowsProd_eq_getD (l : List (Shares n κ)) (k : κ) : rowsProd l k = ∏ j ∈ Finset.range l.length, reveal (l.getD j fun _ _ => 0#64) k := by
  induction l with
  | nil => rfl
  | cons a l ih =>
    rw [List.length_cons, Finset.prod_range_succ']
    have : rowsProd (a :: l) k = reveal a k * rowsProd l k := by simp [rowsProd]
    rw [this, ih, mul_comm]
    simp

theorem rowsProd_unstack {h : ℕ} (y : Shares n (Fin h × κ)) (k : κ) : rowsProd (unstackRows y) k = ∏ j : Fin h, reveal y (j, k) := by
  unfold rowsProd unstackRows
  rw [List.map_ofFn, List.prod_ofFn]
  exact Finset.prod_congr rfl fun j _ => by simp only [Function.comp, reveal_apply]

theorem reveal_takeRows (h off : ℕ) (l : List (Shares n κ)) (j : Fin h) (k : κ) :
    reveal (takeRows h off l) (j, k) = reveal (l.getD (off + j) fun _ _ => 0#64) k := by
  simp only [takeRows, reveal_apply]

theorem apply_elementwise (x y : Tensor ι) (i : ι) : (elementwise ι).apply x y i = x i * y i := by
  simp [BilinearOp.apply, elementwise, Torch.mulOp]

theorem rowsProd_split (l : List (Shares n κ)) (k : κ) (h : ℕ) (hh : 2 * h ≤ l.length) :
    rowsProd l k = (∏ j : Fin h, (reveal (l.getD j fun _ _ => 0#64) k * reveal (l.getD (h + j) fun _ _ => 0#64) k)) * rowsProd (l.drop (2 * h)) k := by
  rw [rowsProd_eq_getD, rowsProd_eq_getD, List.length_drop, Finset.prod_mul_distrib]
  have e1 : l.length = 2 * h + (l.length - 2 * h) := by omega
  rw [e1, Finset.prod_range_add]
  have e2 : 2 * h + (l.length - 2 * h) - 2 * h = l.length - 2 * h := by omega
  rw [e2]
  congr 1
  · rw [two_mul, Finset.prod_range_add, Finset.prod_range, Finset.prod_range]
  · refine Finset.prod_congr rfl fun j hj => ?_
    congr 1
    rw [Finset.mem_range] at hj
    rw [List.getD_eq_getElem _ _ (by omega), List.getD_eq_getElem _ _ (by rw [List.length_drop]; omega), List.getElem_drop]

theorem sat_prodLoop [NeZero n] : ∀ (fuel : ℕ) (l : List (Shares n κ)), l.length ≤ fuel + 1 →
    SatX (prodLoop fuel l 1) fun r => r.2 = 1 ∧ r.1.length ≤ 1 ∧ (l ≠ [] → r.1.length = 1) ∧ ∀ k, rowsProd r.1 k = rowsProd l k := by
  intro fuel
  induction fuel with
  | zero =>
    intro l hl
    refine SatX.pure ⟨rfl, by omega, fun h => ?_, fun k => rfl⟩
    have := List.length_pos_iff.2 h
    show l.length = 1
    omega
  | succ fuel ih =>
    intro l hl
    unfold prodLoop
    split
    · rename_i h1
      simp only
      have hmul : SatX (AST.mul (elementwise (Fin (l.length / 2) × κ)) ⟨takeRows (l.length / 2) 0 l, 1⟩ ⟨takeRows (l.length / 2) (l.length / 2) l, 1⟩)
          fun z : AST n (Fin (l.length / 2) × κ) => z.scale = 1 ∧ ∀ jk, reveal z.share jk = reveal (takeRows (l.length / 2) 0 l) jk * reveal (takeRows (l.length / 2) (l.length / 2) l) jk := by
        refine SatX.bind (sat_mul _ _ _) fun s hs => ?_
        rw [if_neg (by simp), if_neg (by simp)]
        exact SatX.pure ⟨rfl, fun jk => by rw [hs, apply_elementwise]⟩
      refine SatX.bind hmul fun z hz => ?_
      rw [hz.1]
      have hlen : (unstackRows z.share ++ l.drop (2 * (l.length / 2))).length = l.length / 2 + (l.length - 2 * (l.length / 2)) := by
        rw [List.length_append, List.length_drop, unstackRows, List.length_ofFn]
      refine (ih _ (by rw [hlen]; omega)).mono fun r hr => ⟨hr.1, hr.2.1, fun _ => hr.2.2.1 ?_, fun k => ?_⟩
      · apply List.ne_nil_of_length_pos; rw [hlen]; omega
      · rw [hr.2.2.2, rowsProd_append, rowsProd_unstack, rowsProd_split l k (l.length / 2) (by omega)]
        congr 1
        refine Finset.prod_congr rfl fun j _ => ?_
        rw [hz.2, reveal_takeRows, reveal_takeRows, Nat.zero_add]
    · rename_i h1
      refine SatX.pure ⟨rfl, by show l.length ≤ 1; omega, fun h => ?_, fun k => rfl⟩
      have := List.length_pos_iff.2 h
      show l.length = 1
      omega

/-- **C28 (exact ring arithmetic).** For unscaled tensors `prod` is the product of all the elements modulo 2^64, for every length. -/
theorem C28_prod_unscaled [NeZero n] {m : ℕ} (hm : 0 < m) (x : AST n (Fin m × κ)) (hx : x.scale = 1) :
    SatX x.prodFirst fun z => z.scale = 1 ∧ ∀ k, reveal z.share k = ∏ j : Fin m, reveal x.share (j, k) := by
  unfold AST.prodFirst
  rw [hx]
  have hlen : (unstackRows x.share).length = m := by rw [unstackRows, List.length_ofFn]
  refine SatX.bind (sat_prodLoop m (unstackRows x.share) (by omega)) fun r hr => SatX.pure ⟨hr.1, fun k => ?_⟩
  obtain ⟨a, ha⟩ := List.length_eq_one_iff.1 (hr.2.2.1 (by apply List.ne_nil_of_length_pos; omega))
  have := hr.2.2.2 k
  rw [ha, rowsProd_unstack] at this
  simpa [rowsProd, ha] using this

theorem prod_boolI64 {J : Type} [Fintype J] (b : J → Bool) : ∏ j, boolI64 (b j) = boolI64 (decide (∀ j, b j = true)) := by
  classical
  by_cases h : ∀ j, b j = true
  · rw [decide_eq_true h]
    exact Finset.prod_eq_one fun j _ => by rw [h j]; rfl
  · rw [decide_eq_false h]
    push Not at h
    obtain ⟨j, hj⟩ := h
    refine Finset.prod_eq_zero (Finset.mem_univ j) ?_
    rw [Bool.eq_false_iff.2 hj]; rfl

/-! ## Pairwise comparisons -/

theorem rollIndex_surj {m : ℕ} (j j' : Fin m) (h : j ≠ j') : ∃ i, i < m - 1 ∧ rollIndex i j = j' := by
  have h1 := j.isLt; have h2 := j'.isLt
  have hne : j.val ≠ j'.val := fun e => h (Fin.ext e)
  rcases lt_or_gt_of_ne hne with hlt | hlt
  · refine ⟨m - (j' - j) - 1, by omega, Fin.ext ?_⟩
    show (j.val + (m - (m - (j'.val - j.val) - 1 + 1) % m)) % m = j'.val
    rw [Nat.mod_eq_of_lt (a := m - (j'.val - j.val) - 1 + 1) (by omega), Nat.mod_eq_of_lt (by omega)]; omega
  · refine ⟨j - j' - 1, by omega, Fin.ext ?_⟩
    show (j.val + (m - (j.val - j'.val - 1 + 1) % m)) % m = j'.val
    rw [Nat.mod_eq_of_lt (a := j.val - j'.val - 1 + 1) (by omega)]
    have : j.val + (m - (j.val - j'.val - 1 + 1)) = j'.val + m := by omega
    rw [this, Nat.add_mod_right, Nat.mod_eq_of_lt h2]

/-- All differences of entries of a column can be represented. -/
def DiffFits {m : ℕ} (x : AST n (Fin m × κ)) : Prop := ∀ k i j, Fits (x.scale * (x.value (i, k) - x.value (j, k)))

theorem all_rolls_iff {m : ℕ} (hm : 0 < m) (f : Fin m → ℚ) (j : Fin m) :
    (∀ i : Fin ((if m > 1 then m else 2) - 1), f (rollIndex i j) ≤ f j) ↔ ∀ j', f j' ≤ f j := by
  constructor
  · intro h j'
    by_cases e : j = j'
    · rw [e]
    · obtain ⟨i, hi, hr⟩ := rollIndex_surj j j' e
      have h1 := j.isLt; have h2 := j'.isLt
      have h3 : j.val ≠ j'.val := fun h' => e (Fin.ext h')
      have hm1 : m > 1 := by omega
      have := h ⟨i, by rw [if_pos hm1]; exact hi⟩
      rwa [hr] at this
  · intro h i; exact h _

theorem sat_argmaxPairwise [NeZero n] (p : ℕ) {m : ℕ} (hm : 0 < m) (hm' : m < 2 ^ 63) (x : AST n (Fin m × κ)) (hx : StdScale (2 ^ p) x.scale) (hfit : DiffFits x) :
    SatX (x.argmaxPairwise p) fun z => IsBit z fun jk => decide (∀ j', x.value (j', jk.2) ≤ x.value jk) := by
  classical
  unfold AST.argmaxPairwise
  have hD := Nat.two_pow_pos p
  generalize hr : (if m > 1 then m else 2) = r
  have hr1 : 0 < r - 1 ∧ r - 1 ≤ m := by subst hr; split <;> omega
  have hall : ∀ (k : κ) (j : Fin m), (∀ i : Fin (r - 1), x.value (rollIndex i j, k) ≤ x.value (j, k)) ↔ ∀ j', x.value (j', k) ≤ x.value (j, k) := by
    intro k j
    have := all_rolls_iff hm (fun j => x.value (j, k)) j
    rw [hr] at this; exact this
  refine SatX.bind (sat_ge_bit hD (x.reindex fun ijk : Fin (r - 1) × (Fin m × κ) => ijk.2) hx (.enc (x.reindex fun ijk => (rollIndex ijk.1 ijk.2.1, ijk.2.2))) hx fun ijk => ?_) fun c hc => ?_
  · show Fits ((max x.scale x.scale : ℕ) * ((x.reindex _).value ijk - (x.reindex _).value ijk))
    rw [max_self, value_reindex, value_reindex]; exact hfit _ _ _
  have hcv : ∀ i j k, reveal c.share (i, (j, k)) = boolI64 (decide (x.value (rollIndex i j, k) ≤ x.value (j, k))) := by
    intro i j k
    rw [hc.2]
    congr 1
    show decide ((x.reindex _).value _ ≤ (x.reindex _).value _) = _
    rw [value_reindex, value_reindex]
  split
  · refine (C28_prod_unscaled hr1.1 c hc.1).mono fun z hz => ⟨hz.1, fun jk => ?_⟩
    rw [hz.2]
    simp only [hcv, prod_boolI64]
    congr 1
    rw [decide_eq_decide]
    simp only [decide_eq_true_eq]
    exact hall jk.2 jk.1
  · have hsv : ∀ jk, c.sumFirst.value jk = ((Finset.univ.filter fun i : Fin (r - 1) => x.value (rollIndex i jk.1, jk.2) ≤ x.value jk).card : ℕ) := by
      intro jk
      refine value_of_nat (x := c.sumFirst) hc.1 ?_ (lt_of_le_of_lt (Finset.card_le_univ _) (by rw [Fintype.card_fin]; omega))
      rw [reveal_sumFirst]
      simp only [hcv]
      rw [Finset.card_eq_sum_ones, Finset.sum_filter]
      have cast : ∀ s : Finset (Fin (r - 1)), ∑ i ∈ s, boolI64 (decide (x.value (rollIndex i jk.1, jk.2) ≤ x.value jk)) = BitVec.ofNat 64 (∑ i ∈ s, if x.value (rollIndex i jk.1, jk.2) ≤ x.value jk then 1 else 0) := by
        intro s
        induction s using Finset.cons_induction with
        | empty => rfl
        | cons a s ha ih =>
          rw [Finset.sum_cons, Finset.sum_cons, ih, BitVec.ofNat_add]
          congr 1
          split
          · rename_i h; rw [decide_eq_true h]; rfl
          · rename_i h; rw [decide_eq_false h]; rfl
      exact cast Finset.univ
    have hss : c.sumFirst.scale = 1 := hc.1
    have hpub : ∀ jk, (Operand.pub (n := n) fun _ : Fin m × κ => ((r - 1 : ℕ) : ℚ)).valueAt c.sumFirst.scale jk = ((r - 1 : ℕ) : ℚ) := by
      intro jk
      show (truncQ (c.sumFirst.scale * ((r - 1 : ℕ) : ℚ)) : ℚ) / (c.sumFirst.scale : ℚ) = _
      rw [hss]
      have := truncQ_intCast ((r - 1 : ℕ) : ℤ)
      rw [Int.cast_natCast] at this
      rw [Nat.cast_one, one_mul, this, Int.cast_natCast, div_one]
    have hcard : ∀ jk : Fin m × κ, (Finset.univ.filter fun i : Fin (r - 1) => x.value (rollIndex i jk.1, jk.2) ≤ x.value jk).card ≤ r - 1 := by
      intro jk
      have := Finset.card_le_univ (Finset.univ.filter fun i : Fin (r - 1) => x.value (rollIndex i jk.1, jk.2) ≤ x.value jk)
      rwa [Fintype.card_fin] at this
    refine (sat_ge_bit hD c.sumFirst (Or.inl hss) (.pub fun _ => ((r - 1 : ℕ) : ℚ)) trivial fun jk => ?_).mono fun z hz => ⟨hz.1, fun jk => ?_⟩
    · rw [hpub, hsv]
      show Fits ((c.sumFirst.scale : ℕ) * _)
      rw [hss, Nat.cast_one, one_mul]
      have h1 := hcard jk
      have h2 : ((Finset.univ.filter fun i : Fin (r - 1) => x.value (rollIndex i jk.1, jk.2) ≤ x.value jk).card : ℚ) ≤ ((r - 1 : ℕ) : ℚ) := by exact_mod_cast h1
      have h3 : ((r - 1 : ℕ) : ℚ) < 2 ^ 63 := by
        have : r - 1 < 2 ^ 63 := by omega
        exact_mod_cast this
      have h4 : (0 : ℚ) ≤ ((Finset.univ.filter fun i : Fin (r - 1) => x.value (rollIndex i jk.1, jk.2) ≤ x.value jk).card : ℚ) := Nat.cast_nonneg _
      constructor <;> linarith
    · rw [hz.2]
      congr 1
      rw [decide_eq_decide, hpub, hsv, Nat.cast_le]
      have h1 := hcard jk
      rw [← hall jk.2 jk.1]
      constructor
      · intro h i
        have h2 := Finset.card_eq_iff_eq_univ (Finset.univ.filter fun i : Fin (r - 1) => x.value (rollIndex i jk.1, jk.2) ≤ x.value jk)
        rw [Fintype.card_fin] at h2
        have h3 := h2.1 (by omega)
        have h4 : i ∈ (Finset.univ.filter fun i : Fin (r - 1) => x.value (rollIndex i jk.1, jk.2) ≤ x.value jk) := by rw [h3]; exact Finset.mem_univ i
        exact (Finset.mem_filter.1 h4).2
      · intro h
        have : (Finset.univ.filter fun i : Fin (r - 1) => x.value (rollIndex i jk.1, jk.2) ≤ x.value jk) = Finset.univ := by
          apply Finset.filter_true_of_mem; intro i _; exact h i
        rw [this, Finset.card_univ, Fintype.card_fin]

/-- One-hot selection among the indices of positive weight. -/
theorem sat_oneHot [NeZero n] (p : ℕ) (hp : p ≤ 62) {m : ℕ} (w : AST n (Fin m × κ)) (hs : w.scale = 1) (W : Fin m → κ → ℕ)
    (hw : ∀ j k, w.value (j, k) = W j k) (hfit : ∀ k, 2 ^ p * (∑ j, W j k) < 2 ^ 63) (hpos : ∀ k, 0 < ∑ j, W j k) :
    SatX (w.weightedIndex p) fun z => z.scale = 1 ∧ ∃ pick : κ → Fin m, (∀ k, 0 < W (pick k) k) ∧ ∀ j k, z.value (j, k) = if j = pick k then 1 else 0 := by
  refine (sat_weightedIndex p hp w hs W hw hfit).mono fun z hz => ⟨hz.1, ?_⟩
  obtain ⟨R, hR, hv⟩ := hz.2
  have hc := fun k => chosen_unique (fun j => W j k) (hR k) (hpos k)
  choose pick h1 h2 using fun k => (hc k).1
  refine ⟨pick, fun k => (hc k).2 _ (h1 k), fun j k => ?_⟩
  rw [hv]
  by_cases e : j = pick k
  · rw [if_pos e, e, if_pos (h1 k)]
  · rw [if_neg e, if_neg fun h => e (h2 k j h)]

/-- Marking the maximal rows with the number `K` and sampling among them. -/
theorem sat_oneHot_max [NeZero n] (p : ℕ) (hp : p ≤ 62) {m : ℕ} (hm : 0 < m) (x w : AST n (Fin m × κ)) (hs : w.scale = 1) (K : ℕ) (hK : 0 < K)
    (hw : ∀ j k, w.value (j, k) = if ∀ j', x.value (j', k) ≤ x.value (j, k) then (K : ℚ) else 0) (hfit : 2 ^ p * (m * K) < 2 ^ 63) :
    SatX (w.weightedIndex p) fun z => z.scale = 1 ∧ ∃ pick : κ → Fin m,
      (∀ k, IsGreatest (Set.range fun j => x.value (j, k)) (x.value (pick k, k))) ∧ ∀ j k, z.value (j, k) = if j = pick k then 1 else 0 := by
  classical
  have hw' : ∀ j k, w.value (j, k) = ((fun j k => if ∀ j', x.value (j', k) ≤ x.value (j, k) then K else 0 : Fin m → κ → ℕ) j k : ℕ) := by
    intro j k; rw [hw]; by_cases h : ∀ j', x.value (j', k) ≤ x.value (j, k) <;> simp [h]
  refine (sat_oneHot p hp w hs _ hw' (fun k => lt_of_le_of_lt (Nat.mul_le_mul_left _ ?_) hfit) fun k => ?_).mono fun z hz => ⟨hz.1, ?_⟩
  · have : ∑ j : Fin m, (if ∀ j', x.value (j', k) ≤ x.value (j, k) then K else 0) ≤ ∑ _j : Fin m, K := by
      refine Finset.sum_le_sum fun j _ => ?_
      split <;> simp
    simpa using this
  · obtain ⟨j, -, hj⟩ := Finset.exists_max_image Finset.univ (fun j => x.value (j, k)) ⟨⟨0, hm⟩, Finset.mem_univ _⟩
    refine Finset.sum_pos' (fun _ _ => Nat.zero_le _) ⟨j, Finset.mem_univ j, ?_⟩
    show 0 < (if ∀ j', x.value (j', k) ≤ x.value (j, k) then K else 0)
    rw [if_pos fun j' => hj j' (Finset.mem_univ _)]; exact hK
  · obtain ⟨pick, h1, h2⟩ := hz.2
    refine ⟨pick, fun k => ⟨⟨pick k, rfl⟩, ?_⟩, h2⟩
    rintro _ ⟨j, rfl⟩
    have := h1 k
    beta_reduce at this
    split at this
    · rename_i h; exact h j
    · omega

theorem sat_argmaxOneHotPairwise [NeZero n] (p : ℕ) (hp : p ≤ 62) {m : ℕ} (hm : 0 < m) (hm' : 2 ^ p * m < 2 ^ 63) (x : AST n (Fin m × κ))
    (hx : StdScale (2 ^ p) x.scale) (hfit : DiffFits x) :
    SatX (x.argmaxOneHotPairwise p) fun z => z.scale = 1 ∧ ∃ pick : κ → Fin m,
      (∀ k, IsGreatest (Set.range fun j => x.value (j, k)) (x.value (pick k, k))) ∧ ∀ j k, z.value (j, k) = if j = pick k then 1 else 0 := by
  have hm2 : m < 2 ^ 63 := lt_of_le_of_lt (Nat.le_mul_of_pos_left _ (Nat.two_pow_pos p)) hm'
  refine SatX.bind (sat_argmaxPairwise p hm hm2 x hx hfit) fun a ha => ?_
  refine sat_oneHot_max p hp hm x a ha.1 1 one_pos (fun j k => ?_) (by rwa [mul_one])
  rw [ha.value]; simp only [decide_eq_true_eq, Nat.cast_one]

/-- Multiplying by a one-hot tensor and summing selects. -/
theorem sat_select [NeZero n] {m : ℕ} (x z : AST n (Fin m × κ)) (hx : 0 < x.scale) (hz : z.scale = 1) (pick : κ → Fin m)
    (hv : ∀ j k, z.value (j, k) = if j = pick k then 1 else 0) :
    SatX (do let y ← AST.mul (elementwise (Fin m × κ)) x z; pure y.sumFirst) fun r => r.scale = x.scale ∧ ∀ k, r.value k = x.value (pick k, k) := by
  have hxz : ∀ j k, x.value (j, k) * z.value (j, k) = if j = pick k then x.value (j, k) else 0 := by
    intro j k; rw [hv]; split <;> simp
  refine SatX.bind (C56_mul_unscaled (elementwise (Fin m × κ)) x z hx (by rw [hz]; norm_num) (Or.inr hz) fun jk => ?_) fun y hy => SatX.pure ⟨?_, fun k => ?_⟩
  · obtain ⟨j, k⟩ := jk
    rw [bilinearQ_elementwise, hxz, hz, Nat.cast_one, mul_one]
    split
    · exact value_int_range x hx (j, k)
    · rw [mul_zero]; unfold Fits; norm_num
  · show y.scale = x.scale
    rw [hy.1, hz, mul_one]
  · have hys : y.scale = x.scale := by rw [hy.1, hz, mul_one]
    have hyw : ∀ j, reveal y.share (j, k) = if j = pick k then reveal x.share (pick k, k) else 0 := by
      intro j
      have h1 := word_eq_value (x := y) (by rw [hys]; exact hx) (j, k)
      rw [hy.2, bilinearQ_elementwise, hxz, hys] at h1
      apply BitVec.eq_of_toInt_eq
      split
      · rename_i e
        rw [if_pos e, e, ← word_eq_value hx] at h1
        rw [e]
        exact_mod_cast h1
      · rename_i e
        rw [if_neg e, mul_zero] at h1
        have : (0 : I64).toInt = 0 := by decide
        rw [this]; exact_mod_cast h1
    have hs : reveal y.sumFirst.share k = reveal x.share (pick k, k) := by
      rw [reveal_sumFirst]
      simp only [hyw]
      rw [Finset.sum_ite_eq']; simp
    rw [AST.value, hs]
    show _ / ((y.scale : ℕ) : ℚ) = _
    rw [hys]; rfl

theorem sat_maxPairwise [NeZero n] (p : ℕ) (hp : p ≤ 62) {m : ℕ} (hm : 0 < m) (hm' : 2 ^ p * m < 2 ^ 63) (x : AST n (Fin m × κ))
    (hx : StdScale (2 ^ p) x.scale) (hfit : DiffFits x) :
    SatX (x.maxPairwise p) fun z => z.scale = x.scale ∧ ∀ k, IsGreatest (Set.range fun j => x.value (j, k)) (z.value k) := by
  refine SatX.bind (sat_argmaxOneHotPairwise p hp hm hm' x hx hfit) fun z hz => ?_
  obtain ⟨pick, h1, h2⟩ := hz.2
  refine (sat_select x z (hx.pos (Nat.two_pow_pos p)) hz.1 pick h2).mono fun r hr => ⟨hr.1, fun k => ?_⟩
  rw [hr.2]; exact h1 k

/-! ## Tree reductions -/

/-- `A` represents the maximum of `B`. -/
def Rep (A B : Set ℚ) : Prop := A ⊆ B ∧ ∀ u ∈ B, ∃ v ∈ A, u ≤ v

theorem Rep.greatest {A B : Set ℚ} (h : Rep A B) {v : ℚ} (hv : IsGreatest A v) : IsGreatest B v := by
  refine ⟨h.1 hv.1, fun u hu => ?_⟩
  obtain ⟨w, hw, hle⟩ := h.2 u hu
  exact hle.trans (hv.2 hw)

theorem Rep.refl (A : Set ℚ) : Rep A A := ⟨subset_rfl, fun u hu => ⟨u, hu, le_rfl⟩⟩

theorem Rep.trans {A B C : Set ℚ} (h : Rep A B) (h' : Rep B C) : Rep A C :=
  ⟨h.1.trans h'.1, fun u hu => by
    obtain ⟨v, hv, h1⟩ := h'.2 u hu
    obtain ⟨w, hw, h2⟩ := h.2 v hv
    exact ⟨w, hw, h1.trans h2⟩⟩

/-- All differences of values of a column can be represented. -/
def RowsFit (l : List (Shares n κ)) (s : ℕ) : Prop := ∀ k, ∀ u ∈ rowValues l s k, ∀ v ∈ rowValues l s k, Fits (s * (u - v))

theorem RowsFit.of_subset {l : List (Shares n κ)} {l' : List (Shares n κ)} {s : ℕ} (h : RowsFit l s) (hs : ∀ k, rowValues l' s k ⊆ rowValues l s k) : RowsFit l' s :=
  fun k u hu v hv => h k u (hs k hu) v (hs k hv)

theorem RowsFit.stack {l : List (Shares n κ)} {s : ℕ} (h : RowsFit l s) : DiffFits (stackAST l s) := by
  intro k i j
  refine h k _ ?_ _ ?_
  · rw [← range_stackAST]; exact ⟨i, rfl⟩
  · rw [← range_stackAST]; exact ⟨j, rfl⟩

theorem sat_cryptenWhere [NeZero n] (c x y : AST n ι) (b : ι → Bool) (hc : IsBit c b) (hs : 0 < x.scale) (hxy : y.scale = x.scale) :
    SatX (cryptenWhere c x y) fun z => z.scale = x.scale ∧ ∀ i, z.value i = if b i then x.value i else y.value i := by
  have hb' := hc.oneMinus
  have e1 : ∀ i, c.oneMinus.value i * y.value i = if b i then 0 else y.value i := by
    intro i; rw [hb'.value]; cases b i <;> simp
  have e2 : ∀ i, c.value i * x.value i = if b i then x.value i else 0 := by
    intro i; rw [hc.value]; cases b i <;> simp
  have f0 : Fits 0 := by unfold Fits; norm_num
  have hys : 0 < y.scale := hxy ▸ hs
  refine SatX.bind (C56_mul_unscaled (elementwise ι) c x (by rw [hc.1]; norm_num) hs (Or.inl hc.1) fun i => ?_) fun xm hxm => ?_
  · rw [bilinearQ_elementwise, e2, hc.1, Nat.cast_one, one_mul]
    split
    · exact value_int_range x hs i
    · rw [mul_zero]; exact f0
  refine SatX.bind (C56_mul_unscaled (elementwise ι) c.oneMinus y (by rw [hb'.1]; norm_num) hys (Or.inl hb'.1) fun i => ?_) fun ym hym => ?_
  · rw [bilinearQ_elementwise, e1, hb'.1, Nat.cast_one, one_mul]
    split
    · rw [mul_zero]; exact f0
    · exact value_int_range y hys i
  have s1 : xm.scale = x.scale := by rw [hxm.1, hc.1, one_mul]
  have s2 : ym.scale = x.scale := by rw [hym.1, hb'.1, one_mul, hxy]
  have hsum : ∀ i, xm.value i + ym.value i = if b i then x.value i else y.value i := by
    intro i
    rw [hxm.2, hym.2, bilinearQ_elementwise, bilinearQ_elementwise, e1, e2]
    split <;> simp
  refine (C56_add xm ym ⟨by omega, by omega, Or.inl (by rw [s1, s2])⟩ fun i => ?_).mono fun z hz => ⟨?_, fun i => ?_⟩
  · rw [hsum, s1, s2, max_self]
    split
    · exact value_int_range x hs i
    · rw [← hxy]; exact value_int_range y hys i
  · rw [hz.1, s1, s2, max_self]
  · rw [hz.2, hsum]

theorem takeRows_value (h off : ℕ) (l : List (Shares n κ)) (s : ℕ) (j : Fin h) (k : κ) :
    (⟨takeRows h off l, s⟩ : AST n (Fin h × κ)).value (j, k) = ((reveal (l.getD (off + j) fun _ _ => 0#64) k).toInt : ℚ) / s := by
  simp only [AST.value, takeRows, reveal_apply]

theorem mem_rowValues_drop {l : List (Shares n κ)} {s : ℕ} {k : κ} {d j : ℕ} (hd : d ≤ j) (hj : j < l.length) :
    ((reveal (l.getD j fun _ _ => 0#64) k).toInt : ℚ) / s ∈ rowValues (l.drop d) s k := by
  rw [mem_rowValues_iff]
  refine ⟨j - d, by rw [List.length_drop]; omega, ?_⟩
  rw [List.getD_eq_getElem _ _ hj, List.getD_eq_getElem _ _ (by rw [List.length_drop]; omega), List.getElem_drop]
  congr 5; omega

theorem rowValues_drop_subset (l : List (Shares n κ)) (s : ℕ) (k : κ) (d : ℕ) : rowValues (l.drop d) s k ⊆ rowValues l s k := by
  rintro u ⟨r, hr, rfl⟩
  exact ⟨r, List.mem_of_mem_drop hr, rfl⟩

theorem sat_halvingSteps [NeZero n] (p s : ℕ) (hs : StdScale (2 ^ p) s) : ∀ (steps : ℕ) (l : List (Shares n κ)), 0 < l.length → RowsFit l s →
    SatX (halvingSteps p s steps l) fun l' => 0 < l'.length ∧ l'.length ≤ l.length ∧ ∀ k, Rep (rowValues l' s k) (rowValues l s k) := by
  intro steps
  induction steps with
  | zero => intro l hl _; exact SatX.pure ⟨hl, le_rfl, fun k => Rep.refl _⟩
  | succ steps ih =>
    intro l hl hfit
    unfold halvingSteps
    have hD := Nat.two_pow_pos p
    have hs0 := hs.pos hD
    simp only
    generalize hh : l.length / 2 = h
    have hx0 : ∀ (j : Fin h) (k : κ), (⟨takeRows h 0 l, s⟩ : AST n (Fin h × κ)).value (j, k) = ((reveal (l.getD j fun _ _ => 0#64) k).toInt : ℚ) / s := by
      intro j k; rw [takeRows_value, Nat.zero_add]
    refine SatX.bind (sat_ge_bit hD (⟨takeRows h 0 l, s⟩ : AST n (Fin h × κ)) hs (.enc ⟨takeRows h h l, s⟩) hs fun jk => ?_) fun c hc => ?_
    · obtain ⟨j, k⟩ := jk
      have hj := j.isLt
      show Fits ((max s s : ℕ) * ((⟨takeRows h 0 l, s⟩ : AST n (Fin h × κ)).value (j, k) - (⟨takeRows h h l, s⟩ : AST n (Fin h × κ)).value (j, k)))
      rw [max_self, hx0, takeRows_value]
      exact hfit k _ (rowValues_getD l s k _ (by omega)) _ (rowValues_getD l s k _ (by omega))
    refine SatX.bind (sat_cryptenWhere c _ _ _ hc hs0 rfl) fun z hz => ?_
    have hzs : z.scale = s := hz.1
    have hzv : ∀ (j : Fin h) (k : κ), z.value (j, k) = max (((reveal (l.getD j fun _ _ => 0#64) k).toInt : ℚ) / s) (((reveal (l.getD (h + j) fun _ _ => 0#64) k).toInt : ℚ) / s) := by
      intro j k
      rw [hz.2]
      show (if decide ((⟨takeRows h h l, s⟩ : AST n (Fin h × κ)).value (j, k) ≤ (⟨takeRows h 0 l, s⟩ : AST n (Fin h × κ)).value (j, k)) = true then _ else _) = _
      rw [hx0, takeRows_value]
      simp only [decide_eq_true_eq]
      split
      · rename_i h'; exact (max_eq_left h').symm
      · rename_i h'; exact (max_eq_right (not_le.1 h').le).symm
    have hrep : ∀ k, Rep (rowValues (unstackRows z.share ++ l.drop (2 * h)) s k) (rowValues l s k) := by
      intro k
      rw [rowValues_append]
      have hz' := rowValues_unstack z k
      rw [hzs] at hz'
      rw [hz']
      constructor
      · rintro u (⟨j, rfl⟩ | hu)
        · have hj := j.isLt
          simp only [hzv]
          rcases max_choice (((reveal (l.getD j fun _ _ => 0#64) k).toInt : ℚ) / s) (((reveal (l.getD (h + j) fun _ _ => 0#64) k).toInt : ℚ) / s) with e | e <;> rw [e]
          · exact rowValues_getD l s k _ (by omega)
          · exact rowValues_getD l s k _ (by omega)
        · exact rowValues_drop_subset l s k _ hu
      · intro u hu
        obtain ⟨j, hj, rfl⟩ := (mem_rowValues_iff l s k u).1 hu
        by_cases h1 : j < h
        · exact ⟨_, Or.inl ⟨⟨j, h1⟩, rfl⟩, by beta_reduce; rw [hzv]; exact le_max_left _ _⟩
        · by_cases h2 : j < 2 * h
          · refine ⟨_, Or.inl ⟨⟨j - h, by omega⟩, rfl⟩, ?_⟩
            beta_reduce
            rw [hzv]
            have : h + ((⟨j - h, by omega⟩ : Fin h) : ℕ) = j := by show h + (j - h) = j; omega
            rw [this]; exact le_max_right _ _
          · exact ⟨_, Or.inr (mem_rowValues_drop (by omega) hj), le_rfl⟩
    have hlen : (unstackRows z.share ++ l.drop (2 * h)).length = h + (l.length - 2 * h) := by
      rw [List.length_append, List.length_drop, unstackRows, List.length_ofFn]
    refine (ih _ (by rw [hlen]; omega) (hfit.of_subset fun k => (hrep k).1)).mono fun l' hl' => ⟨hl'.1, ?_, fun k => (hl'.2.2 k).trans (hrep k)⟩
    have := hl'.2.1
    rw [hlen] at this; omega

theorem sat_maxStack [NeZero n] (p : ℕ) (hp : p ≤ 62) (l : List (Shares n κ)) (s : ℕ) (hs : StdScale (2 ^ p) s) (hl : 0 < l.length)
    (hm : 2 ^ p * l.length < 2 ^ 63) (hfit : RowsFit l s) :
    SatX ((stackAST l s).maxPairwise p) fun z => z.scale = s ∧ ∀ k, IsGreatest (rowValues l s k) (z.value k) := by
  refine (sat_maxPairwise p hp hl hm (stackAST l s) hs hfit.stack).mono fun z hz => ⟨hz.1, fun k => ?_⟩
  have := hz.2 k
  rwa [range_stackAST] at this

theorem sat_maxDoubleLog [NeZero n] (p : ℕ) (hp : p ≤ 62) (s : ℕ) (hs : StdScale (2 ^ p) s) : ∀ (fuel : ℕ) (κ : Type) (l : List (Shares n κ)),
    0 < l.length → l.length ≤ fuel → 2 ^ p * l.length < 2 ^ 63 → RowsFit l s →
    SatX (maxDoubleLog p fuel κ l s) fun z => z.scale = s ∧ ∀ k, IsGreatest (rowValues l s k) (z.value k) := by
  intro fuel
  induction fuel with
  | zero => intro κ l h0 h1; omega
  | succ fuel ih =>
    intro κ l h0 hf hm hfit
    unfold maxDoubleLog
    simp only
    split
    · rename_i h1
      obtain ⟨a, rfl⟩ := List.length_eq_one_iff.1 h1
      refine SatX.pure ⟨rfl, fun k => ⟨⟨a, by simp, rfl⟩, ?_⟩⟩
      rintro u ⟨r, hr, rfl⟩
      rw [List.mem_singleton] at hr
      subst hr; exact le_rfl
    · rename_i h1
      have hq1 : 0 < Nat.sqrt l.length := Nat.sqrt_pos.2 h0
      have hq2 : Nat.sqrt l.length < l.length := Nat.sqrt_lt_self (by omega)
      generalize Nat.sqrt l.length = q at hq1 hq2
      generalize hcq : l.length / q = count
      have hc1 : 0 < count := by rw [← hcq]; exact Nat.div_pos hq2.le hq1
      have hqc : q * count ≤ l.length := by rw [← hcq]; exact Nat.mul_div_le _ _
      have hval : ∀ (a : Fin q) (b : Fin count) (k : κ), reveal (fun (t : Fin n) (bk : Fin count × κ) => (l.getD (a * count + bk.1) fun _ _ => 0#64) t bk.2) (b, k) = reveal (l.getD (a * count + b) fun _ _ => 0#64) k := by
        intro a b k; simp only [reveal_apply]
      have hidx : ∀ (a : Fin q) (b : Fin count), a * count + b < q * count := by
        intro a b
        have h2 := b.isLt
        have h3 : (a.val + 1) * count ≤ q * count := Nat.mul_le_mul_right _ a.isLt
        rw [Nat.succ_mul] at h3; omega
      have hsplit : ∀ (b : Fin count) (k : κ), rowValues (List.ofFn fun a : Fin q => fun (t : Fin n) (bk : Fin count × κ) => (l.getD (a * count + bk.1) fun _ _ => 0#64) t bk.2) s (b, k)
          = Set.range fun a : Fin q => ((reveal (l.getD (a * count + b) fun _ _ => 0#64) k).toInt : ℚ) / s := by
        intro b k
        ext u
        constructor
        · rintro ⟨r, hr, rfl⟩
          obtain ⟨a, rfl⟩ := (List.mem_ofFn).1 hr
          exact ⟨a, by rw [hval]⟩
        · rintro ⟨a, rfl⟩
          exact ⟨_, (List.mem_ofFn).2 ⟨a, rfl⟩, by rw [hval]⟩
      have hsub : ∀ (b : Fin count) (k : κ), rowValues (List.ofFn fun a : Fin q => fun (t : Fin n) (bk : Fin count × κ) => (l.getD (a * count + bk.1) fun _ _ => 0#64) t bk.2) s (b, k) ⊆ rowValues l s k := by
        intro b k u hu
        rw [hsplit] at hu
        obtain ⟨a, rfl⟩ := hu
        have := hidx a b
        exact rowValues_getD l s k _ (by omega)
      refine SatX.bind (ih (Fin count × κ) _ (by rw [List.length_ofFn]; exact hq1) (by rw [List.length_ofFn]; omega) (by
          rw [List.length_ofFn]
          exact lt_of_le_of_lt (Nat.mul_le_mul_left _ hq2.le) hm) (fun bk u hu v hv => hfit bk.2 u (hsub bk.1 bk.2 hu) v (hsub bk.1 bk.2 hv))) fun r hr => ?_
      have hrs : r.scale = s := hr.1
      have hrep : ∀ k, Rep (rowValues (unstackRows r.share ++ l.drop (q * count)) s k) (rowValues l s k) := by
        intro k
        rw [rowValues_append]
        have hz' := rowValues_unstack r k
        rw [hrs] at hz'
        rw [hz']
        constructor
        · rintro u (⟨b, rfl⟩ | hu)
          · exact hsub b k (hr.2 (b, k)).1
          · exact rowValues_drop_subset l s k _ hu
        · intro u hu
          obtain ⟨j, hj, rfl⟩ := (mem_rowValues_iff l s k u).1 hu
          by_cases h2 : j < q * count
          · have hb : j % count < count := Nat.mod_lt _ hc1
            have ha : j / count < q := by rw [Nat.div_lt_iff_lt_mul hc1]; exact h2
            refine ⟨_, Or.inl ⟨⟨j % count, hb⟩, rfl⟩, (hr.2 (⟨j % count, hb⟩, k)).2 ?_⟩
            rw [hsplit]
            refine ⟨⟨j / count, ha⟩, ?_⟩
            have : j / count * count + j % count = j := by rw [mul_comm]; exact Nat.div_add_mod j count
            simp only [this]
          · exact ⟨_, Or.inr (mem_rowValues_drop (by omega) hj), le_rfl⟩
      have hlen : (unstackRows r.share ++ l.drop (q * count)).length = count + (l.length - q * count) := by
        rw [List.length_append, List.length_drop, unstackRows, List.length_ofFn]
      have hcl : count ≤ q * count := Nat.le_mul_of_pos_left _ hq1
      refine (sat_maxStack p hp _ s hs (by rw [hlen]; omega) ?_ (hfit.of_subset fun k => (hrep k).1)).mono fun z hz => ⟨hz.1, fun k => (hrep k).greatest (hz.2 k)⟩
      refine lt_of_le_of_lt (Nat.mul_le_mul_left _ ?_) hm
      rw [hlen]; omega

theorem DiffFits.rows {m : ℕ} {x : AST n (Fin m × κ)} (h : DiffFits x) : RowsFit (unstackRows x.share) x.scale := by
  intro k u hu v hv
  rw [rowValues_unstack] at hu hv
  obtain ⟨i, rfl⟩ := hu
  obtain ⟨j, rfl⟩ := hv
  exact h k i j

/-- **C24 (`max`).** For every row length, every one of the four algorithms, every number of reduction steps and every randomness used for breaking ties,
the result is the maximum of the row. Rows may have up to `2^63 / 2^p` entries. -/
theorem C24_max [NeZero n] (p : ℕ) (hp : p ≤ 62) {m : ℕ} (hm : 0 < m) (hm' : 2 ^ p * m < 2 ^ 63) (method : MaxMethod) (x : AST n (Fin m × κ))
    (hx : StdScale (2 ^ p) x.scale) (hfit : DiffFits x) :
    SatX (x.maxFirst p method) fun z => z.scale = x.scale ∧ ∀ k, IsGreatest (Set.range fun j => x.value (j, k)) (z.value k) := by
  have hlen : (unstackRows x.share).length = m := by rw [unstackRows, List.length_ofFn]
  have back : ∀ {P : Proto n (AST n κ)}, SatX P (fun z => z.scale = x.scale ∧ ∀ k, IsGreatest (rowValues (unstackRows x.share) x.scale k) (z.value k)) →
      SatX P fun z => z.scale = x.scale ∧ ∀ k, IsGreatest (Set.range fun j => x.value (j, k)) (z.value k) := by
    intro P h
    refine h.mono fun z hz => ⟨hz.1, fun k => ?_⟩
    rw [← rowValues_unstack]; exact hz.2 k
  cases method with
  | pairwise => exact sat_maxPairwise p hp hm hm' x hx hfit
  | logReduction steps =>
    refine back (SatX.bind (sat_halvingSteps p x.scale hx steps _ (by omega) hfit.rows) fun l' hl' => ?_)
    refine (sat_maxStack p hp l' x.scale hx hl'.1 ?_ (hfit.rows.of_subset fun k => (hl'.2.2 k).1)).mono fun z hz => ⟨hz.1, fun k => (hl'.2.2 k).greatest (hz.2 k)⟩
    exact lt_of_le_of_lt (Nat.mul_le_mul_left _ (hl'.2.1.trans hlen.le)) hm'
  | doubleLog =>
    exact back (sat_maxDoubleLog p hp x.scale hx m κ _ (by omega) hlen.le (by rw [hlen]; exact hm') hfit.rows)
  | cascade steps =>
    show SatX (maxCascade p steps (unstackRows x.share) x.scale) _
    unfold maxCascade
    split
    · exact back (sat_maxStack p hp _ x.scale hx (by omega) (by rw [hlen]; exact hm') hfit.rows)
    · refine back (SatX.bind (sat_halvingSteps p x.scale hx steps _ (by omega) hfit.rows) fun l' hl' => ?_)
      refine (sat_maxDoubleLog p hp x.scale hx l'.length κ l' hl'.1 le_rfl ?_ (hfit.rows.of_subset fun k => (hl'.2.2 k).1)).mono fun z hz => ⟨hz.1, fun k => (hl'.2.2 k).greatest (hz.2 k)⟩
      exact lt_of_le_of_lt (Nat.mul_le_mul_left _ (hl'.2.1.trans hlen.le)) hm'

theorem neg_value {x : AST n ι} (hs : 0 < x.scale) (i : ι) (h : x.scale * x.value i ≠ -2 ^ 63) : x.neg.value i = -x.value i := by
  refine value_of_word (x := x.neg) hs (neg_word x i) ?_ ?_
  · rw [Int.cast_neg, word_eq_value hs]; show _ = (x.scale : ℚ) * _; ring
  · show Fits ((x.scale : ℚ) * _)
    have := value_int_range x hs i
    obtain ⟨h1, h2⟩ := this
    have h3 : -2 ^ 63 < (x.scale : ℚ) * x.value i := lt_of_le_of_ne h1 (Ne.symm h)
    constructor
    · linarith
    · linarith

/-- **C24 (`min`).** -/
theorem C24_min [NeZero n] (p : ℕ) (hp : p ≤ 62) {m : ℕ} (hm : 0 < m) (hm' : 2 ^ p * m < 2 ^ 63) (method : MaxMethod) (x : AST n (Fin m × κ))
    (hx : StdScale (2 ^ p) x.scale) (hfit : DiffFits x) (hmin : ∀ jk, x.scale * x.value jk ≠ -2 ^ 63) :
    SatX (x.minFirst p method) fun z => z.scale = x.scale ∧ ∀ k, IsLeast (Set.range fun j => x.value (j, k)) (z.value k) := by
  have hs := hx.pos (Nat.two_pow_pos p)
  have hneg : ∀ jk, x.neg.value jk = -x.value jk := fun jk => neg_value hs jk (hmin jk)
  have hfit' : DiffFits x.neg := by
    intro k i j
    rw [hneg, hneg]
    show Fits ((x.scale : ℚ) * _)
    have := hfit k j i
    have e : -x.value (i, k) - -x.value (j, k) = x.value (j, k) - x.value (i, k) := by ring
    rw [e]; exact this
  refine SatX.bind (C24_max p hp hm hm' method x.neg hx hfit') fun r hr => SatX.pure ⟨hr.1, fun k => ?_⟩
  have hrs : r.scale = x.scale := hr.1
  obtain ⟨⟨j, hj⟩, hub⟩ := hr.2 k
  have hj' : r.value k = -x.value (j, k) := by rw [← hneg]; exact hj.symm
  have hw : x.scale * (-x.value (j, k)) ≠ -2 ^ 63 := by
    intro h
    have := (value_int_range x hs (j, k)).2
    linarith
  have hrv : r.neg.value k = x.value (j, k) := by
    rw [neg_value (by rw [hrs]; exact hs) k (by rw [hrs, hj']; exact hw), hj', neg_neg]
  rw [hrv]
  refine ⟨⟨j, rfl⟩, ?_⟩
  rintro _ ⟨i, rfl⟩
  have := hub ⟨i, rfl⟩
  beta_reduce at this
  rw [hneg, hj'] at this
  exact neg_le_neg_iff.1 this

/-- The test for the rows equal to the maximum gives some positive number at those rows (1, or `2^p` for unscaled tensors of two parties). -/
theorem sat_eq_max [NeZero n] (p : ℕ) (hp : p ≤ 62) {m : ℕ} (x : AST n (Fin m × κ)) (mx : AST n κ) (hx : StdScale (2 ^ p) x.scale) (hs : mx.scale = x.scale)
    (hfit : DiffFits x) (hmx : ∀ k, IsGreatest (Set.range fun j => x.value (j, k)) (mx.value k)) :
    ∃ K : ℕ, 0 < K ∧ K ≤ 2 ^ p ∧ SatX (x.eq (2 ^ p) (.enc (mx.reindex Prod.snd))) fun e => e.scale = 1 ∧
      ∀ j k, e.value (j, k) = if ∀ j', x.value (j', k) ≤ x.value (j, k) then (K : ℚ) else 0 := by
  have hD := Nat.two_pow_pos p
  have hs0 := hx.pos hD
  have hpow : (2 : ℕ) ^ p ≤ 2 ^ 62 := Nat.pow_le_pow_right (by norm_num) hp
  have hiff : ∀ j k, x.value (j, k) = mx.value k ↔ ∀ j', x.value (j', k) ≤ x.value (j, k) := by
    intro j k
    constructor
    · intro h j'; rw [h]; exact (hmx k).2 ⟨j', rfl⟩
    · intro h
      obtain ⟨i, hi⟩ := (hmx k).1
      refine le_antisymm ((hmx k).2 ⟨j, rfl⟩) ?_
      rw [← hi]; exact h i
  by_cases hn : n = 2
  · subst hn
    have hK1 : 0 < 2 ^ p / x.scale := by
      rcases hx with h | h <;> rw [h]
      · rw [Nat.div_one]; exact hD
      · rw [Nat.div_self hD]; exact one_pos
    have hK2 : 2 ^ p / x.scale ≤ 2 ^ p := Nat.div_le_self _ _
    refine ⟨2 ^ p / x.scale, hK1, hK2, (C22_equality_any_scale (2 ^ p) x (mx.reindex Prod.snd) hs hs0).mono fun e he => ⟨he.1, fun j k => ?_⟩⟩
    have h := he.2 (j, k)
    rw [value_reindex] at h
    by_cases hv : x.value (j, k) = mx.value k
    · rw [if_pos hv] at h
      rw [if_pos ((hiff j k).1 hv)]
      exact value_of_nat he.1 h (by omega)
    · rw [if_neg hv] at h
      rw [if_neg fun h' => hv ((hiff j k).2 h')]
      have := value_of_nat (v := 0) he.1 h (by norm_num)
      rw [this]; norm_num
  · refine ⟨1, one_pos, hD, ?_⟩
    have hmem : ∀ k, ∃ i, mx.value k = x.value (i, k) := fun k => by
      obtain ⟨i, hi⟩ := (hmx k).1; exact ⟨i, hi.symm⟩
    refine (C21_eq_partial hD x hx (.enc (mx.reindex Prod.snd)) (by show StdScale (2 ^ p) mx.scale; rw [hs]; exact hx) (fun jk => ?_) (fun jk => ?_) hn).mono fun e he => ⟨he.1, fun j k => ?_⟩
    · obtain ⟨j, k⟩ := jk
      show Fits ((max x.scale mx.scale : ℕ) * (x.value (j, k) - (mx.reindex Prod.snd).value (j, k)))
      rw [hs, max_self, value_reindex]
      obtain ⟨i, hi⟩ := hmem k
      rw [hi]; exact hfit k j i
    · obtain ⟨j, k⟩ := jk
      show ((max x.scale mx.scale : ℕ) : ℚ) * (x.value (j, k) - (mx.reindex Prod.snd).value (j, k)) ≠ _
      rw [hs, max_self, value_reindex]
      obtain ⟨i, hi⟩ := hmem k
      rw [hi]
      intro h
      have := (hfit k i j).2
      linarith
    · rw [he.2]
      show (if x.value (j, k) = (mx.reindex Prod.snd).value (j, k) then (1 : ℚ) else 0) = _
      rw [value_reindex]
      by_cases hv : x.value (j, k) = mx.value k
      · rw [if_pos hv, if_pos ((hiff j k).1 hv), Nat.cast_one]
      · rw [if_neg hv, if_neg fun h' => hv ((hiff j k).2 h')]

/-- **C25 (`argmax`, one-hot).** For every algorithm, every tie pattern and every tie-breaking randomness, each row of the result has exactly one 1, at a
position holding the maximum. Rows may have up to `2^63 / 2^(2p)` entries. -/
theorem C25_argmax_one_hot [NeZero n] (p : ℕ) (hp : p ≤ 62) {m : ℕ} (hm : 0 < m) (hm' : 2 ^ p * (m * 2 ^ p) < 2 ^ 63) (method : MaxMethod)
    (x : AST n (Fin m × κ)) (hx : StdScale (2 ^ p) x.scale) (hfit : DiffFits x) :
    SatX (x.argmaxFirst p method) fun z => z.scale = 1 ∧ ∃ pick : κ → Fin m,
      (∀ k, IsGreatest (Set.range fun j => x.value (j, k)) (x.value (pick k, k))) ∧ ∀ j k, z.value (j, k) = if j = pick k then 1 else 0 := by
  have hm2 : 2 ^ p * m < 2 ^ 63 := lt_of_le_of_lt (Nat.mul_le_mul_left _ (Nat.le_mul_of_pos_right _ (Nat.two_pow_pos p))) hm'
  have tree : ∀ method, SatX (do let mx ← x.maxFirst p method; let e ← x.eq (2 ^ p) (.enc (mx.reindex Prod.snd)); e.weightedIndex p) fun z => z.scale = 1 ∧ ∃ pick : κ → Fin m,
      (∀ k, IsGreatest (Set.range fun j => x.value (j, k)) (x.value (pick k, k))) ∧ ∀ j k, z.value (j, k) = if j = pick k then 1 else 0 := by
    intro method
    refine SatX.bind (C24_max p hp hm hm2 method x hx hfit) fun mx hmx => ?_
    obtain ⟨K, hK, hK2, he⟩ := sat_eq_max p hp x mx hx hmx.1 hfit hmx.2
    refine SatX.bind he fun e he => ?_
    exact sat_oneHot_max p hp hm x e he.1 K hK he.2 (lt_of_le_of_lt (Nat.mul_le_mul_left _ (Nat.mul_le_mul_left _ hK2)) hm')
  cases method with
  | pairwise => exact sat_argmaxOneHotPairwise p hp hm hm2 x hx hfit
  | logReduction steps => exact tree _
  | doubleLog => exact tree _
  | cascade steps => exact tree _

/-- **C24 (`max()` over all elements with "accelerated_cascade" or "pairwise").** The maximum computed from the one-hot result. -/
theorem C24_max_from_argmax [NeZero n] (p : ℕ) (hp : p ≤ 62) {m : ℕ} (hm : 0 < m) (hm' : 2 ^ p * (m * 2 ^ p) < 2 ^ 63) (method : MaxMethod)
    (x : AST n (Fin m × κ)) (hx : StdScale (2 ^ p) x.scale) (hfit : DiffFits x) :
    SatX (x.maxFromArgmax p method) fun z => z.scale = x.scale ∧ ∀ k, IsGreatest (Set.range fun j => x.value (j, k)) (z.value k) := by
  refine SatX.bind (C25_argmax_one_hot p hp hm hm' method x hx hfit) fun z hz => ?_
  obtain ⟨pick, h1, h2⟩ := hz.2
  refine (sat_select x z (hx.pos (Nat.two_pow_pos p)) hz.1 pick h2).mono fun r hr => ⟨hr.1, fun k => ?_⟩
  rw [hr.2]; exact h1 k

/-- **C25 (`argmax`, index).** The index computed from a one-hot tensor. -/
theorem C25_one_hot_to_index [NeZero n] {m : ℕ} (hm : m < 2 ^ 63) (z : AST n (Fin m × κ)) (hz : z.scale = 1) (pick : κ → Fin m)
    (hv : ∀ j k, z.value (j, k) = if j = pick k then 1 else 0) : SatX z.oneHotToIndex fun r => r.scale = 1 ∧ ∀ k, r.value k = (pick k : ℕ) := by
  unfold AST.oneHotToIndex AST.mulPub
  simp only
  rw [if_neg (by rw [hz]; norm_num)]
  refine SatX.bind (SatX.pure (Q := fun y => y = (⟨bilinearPublic (elementwise (Fin m × κ)) z.share (encodePublic z.scale fun jk => ((jk.1 : ℕ) : ℚ)), z.scale⟩ : AST n (Fin m × κ))) rfl)
    fun y hy => SatX.pure ?_
  subst hy
  refine ⟨hz, fun k => ?_⟩
  refine value_of_nat (by exact hz) ?_ (lt_trans (pick k).isLt hm)
  rw [reveal_sumFirst]
  have hw : ∀ j, reveal z.share (j, k) = if j = pick k then 1 else 0 := by
    intro j
    have h := word_eq_value (x := z) (by rw [hz]; norm_num) (j, k)
    rw [hz, hv, Nat.cast_one, one_mul] at h
    apply BitVec.eq_of_toInt_eq
    split
    · rename_i e
      rw [if_pos e] at h
      have : (1 : I64).toInt = 1 := by decide
      rw [this]; exact_mod_cast h
    · rename_i e
      rw [if_neg e] at h
      have : (0 : I64).toInt = 0 := by decide
      rw [this]; exact_mod_cast h
  have he : ∀ j, encodePublic z.scale (fun jk : Fin m × κ => ((jk.1 : ℕ) : ℚ)) (j, k) = BitVec.ofNat 64 j := by
    intro j
    rw [encodePublic_ofInt, hz, Nat.cast_one, one_mul]
    have := truncQ_intCast ((j : ℕ) : ℤ)
    rw [Int.cast_natCast] at this
    rw [this]; rfl
  have : ∀ j, reveal (bilinearPublic (elementwise (Fin m × κ)) z.share (encodePublic z.scale fun jk => ((jk.1 : ℕ) : ℚ))) (j, k) = if j = pick k then BitVec.ofNat 64 j else 0 := by
    intro j
    rw [reveal_bilinearPublic, apply_elementwise, hw, he]
    split
    · exact one_mul _
    · exact zero_mul _
  simp only [this]
  rw [Finset.sum_ite_eq']; simp

/-- A row with a tie: 3, 5, 5 at the default precision, two parties. All hypotheses of C24 and C25 are met; the maximum is 5. -/
example : ∃ (T : Tuples 2) (x : AST 2 (Fin 3 × Unit)), T.Valid ∧ x.value (0, ()) = 3 ∧ x.value (1, ()) = 5 ∧ x.value (2, ()) = 5 ∧
    (x.maxFirst 16 (.cascade 0) T 0).val.value () = 5 ∧ (x.maxFirst 16 .doubleLog T 0).val.value () = 5 ∧
    (x.argmaxFirst 16 (.logReduction 1) T 0).val.value (0, ()) = 0 := by
  obtain ⟨T, hT, -⟩ := tuples_exist 2
  let x : AST 2 (Fin 3 × Unit) := ⟨fun q jk => if q = 0 then (if jk.1 = 0 then 196608 else 327680) else 0, 2 ^ 16⟩
  have hw : ∀ j, reveal x.share (j, ()) = if j = 0 then 196608 else 327680 := by
    intro j
    rw [reveal_apply, Finset.sum_ite_eq' Finset.univ (0 : Fin 2) fun _ => (if j = 0 then 196608 else 327680 : I64)]; simp
  have hv : ∀ j, x.value (j, ()) = if j = 0 then 3 else 5 := by
    intro j
    rw [AST.value, hw]
    have h1 : (196608 : I64).toInt = 196608 := by decide
    have h2 : (327680 : I64).toInt = 327680 := by decide
    show _ / ((2 ^ 16 : ℕ) : ℚ) = _
    split
    · rw [h1]; norm_num
    · rw [h2]; norm_num
  have hfit : DiffFits x := by
    intro k i j
    rw [hv, hv]
    show Fits (((2 ^ 16 : ℕ) : ℚ) * _)
    unfold Fits
    by_cases hi : i = 0 <;> by_cases hj : j = 0 <;> simp only [hi, hj, if_true, if_false] <;> norm_num
  have hg : ∀ v, IsGreatest (Set.range fun j => x.value (j, ())) v → v = 5 := by
    intro v hgv
    have h5 : IsGreatest (Set.range fun j => x.value (j, ())) 5 := by
      refine ⟨⟨1, by beta_reduce; rw [hv]; norm_num⟩, ?_⟩
      rintro _ ⟨j, rfl⟩
      beta_reduce
      rw [hv]; split <;> norm_num
    exact hgv.unique h5
  have v0 := hv 0; have v1 := hv 1; have v2 := hv 2
  have m1 := (C24_max 16 (by norm_num) (by norm_num) (by norm_num) (.cascade 0) x (Or.inr rfl) hfit T hT 0).2.2 ()
  have m2 := (C24_max 16 (by norm_num) (by norm_num) (by norm_num) .doubleLog x (Or.inr rfl) hfit T hT 0).2.2 ()
  have m3 := (C25_argmax_one_hot 16 (by norm_num) (by norm_num) (by norm_num) (.logReduction 1) x (Or.inr rfl) hfit T hT 0).2.2
  refine ⟨T, x, hT, v0, v1, v2, hg _ m1, hg _ m2, ?_⟩
  obtain ⟨pick, h1, h2⟩ := m3
  have h3 := hg _ (h1 ())
  rw [hv] at h3
  have : pick () ≠ 0 := by
    intro h; rw [if_pos h] at h3; norm_num at h3
  rw [h2, if_neg (Ne.symm this)]

end CrypTen

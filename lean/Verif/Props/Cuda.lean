import Verif.Spec.Cuda
import Verif.Lemmas.Int64
import Mathlib.Tactic.LinearCombination
import Mathlib.Data.List.GetD
import Mathlib.Algebra.Order.Ring.Int
import Mathlib.Algebra.Order.BigOperators.Group.List

/-! # C47: 64-bit products through doubles -/

namespace CrypTen.Cuda

theorem fp64_exact {m : ℕ} (h : m ≤ 2 ^ 53) : fp64 m = m := if_pos h

theorem order_sum_exact (f : ℕ → ℕ) (o : Order) (h : (o.leaves.map f).sum ≤ 2 ^ 53) : o.sum f = (o.leaves.map f).sum := by
  induction o with
  | leaf k => simp [Order.sum, Order.leaves]
  | node l r ihl ihr =>
    simp only [Order.leaves, List.map_append, List.sum_append] at h ⊢
    rw [Order.sum, ihl (by omega), ihr (by omega), fp64_exact h]

theorem adds_sum {o : Order} {n : ℕ} (f : ℕ → ℕ) (hp : o.leaves.Perm (List.range n)) (h : ((List.range n).map f).sum ≤ 2 ^ 53) : o.sum f = ((List.range n).map f).sum := by
  rw [← (hp.map f).sum_eq] at h ⊢
  exact order_sum_exact f o h

theorem blockSize_3 : blockSize 3 = 22 := rfl
theorem blockSize_4 : blockSize 4 = 16 := rfl

theorem block_eq (nb i : ℕ) (hb : blockSize nb ≤ 64) (x : I64) : (block nb i x : ℤ) = x.toInt / 2 ^ (blockSize nb * i) % 2 ^ blockSize nb := by
  unfold block
  generalize blockSize nb * i = s
  generalize blockSize nb = b at *
  have e : (x.sshiftRight s).toInt = x.toInt / 2 ^ s := by rw [BitVec.toInt_sshiftRight, Int.shiftRight_eq_div_pow]; norm_cast
  rw [← e]
  generalize x.sshiftRight s = w
  rw [BitVec.toNat_and, BitVec.toNat_ofNat]
  have h1 : (2 ^ b - 1) % 2 ^ 64 = 2 ^ b - 1 := Nat.mod_eq_of_lt (by have := Nat.pow_le_pow_right (n := 2) (by norm_num) hb; have := Nat.two_pow_pos b; omega)
  rw [h1, Nat.and_two_pow_sub_one_eq_mod, Int.natCast_mod]
  push_cast
  rw [BitVec.toInt_eq_toNat_cond]
  split
  · rfl
  · have hd : (2 : ℤ) ^ b ∣ 2 ^ 64 := pow_dvd_pow 2 hb
    have hc : (((2 ^ 64 : ℕ) : ℤ)) = 2 ^ 64 := by norm_cast
    rw [hc, Int.sub_emod, Int.emod_eq_zero_of_dvd hd]
    simp

theorem block_lt (nb i : ℕ) (hb : blockSize nb ≤ 64) (x : I64) : block nb i x ≤ 2 ^ blockSize nb - 1 := by
  have h := block_eq nb i hb x
  have := Int.emod_lt_of_pos (x.toInt / 2 ^ (blockSize nb * i)) (b := 2 ^ blockSize nb) (by positivity)
  rw [← h] at this
  have h2 : block nb i x < 2 ^ blockSize nb := by exact_mod_cast this
  omega

theorem word_3 (x : I64) : ∃ q : ℤ, x.toInt = (block 3 0 x : ℤ) + block 3 1 x * 2 ^ 22 + block 3 2 x * 2 ^ 44 + 2 ^ 64 * q := by
  have h0 := block_eq 3 0 (by decide) x
  have h1 := block_eq 3 1 (by decide) x
  have h2 := block_eq 3 2 (by decide) x
  rw [blockSize_3] at h0 h1 h2
  norm_num at h0 h1 h2
  refine ⟨4 * (x.toInt / 2 ^ 66), ?_⟩
  rw [h0, h1, h2]; norm_num; omega

theorem word_4 (x : I64) : ∃ q : ℤ, x.toInt = (block 4 0 x : ℤ) + block 4 1 x * 2 ^ 16 + block 4 2 x * 2 ^ 32 + block 4 3 x * 2 ^ 48 + 2 ^ 64 * q := by
  have h0 := block_eq 4 0 (by decide) x
  have h1 := block_eq 4 1 (by decide) x
  have h2 := block_eq 4 2 (by decide) x
  have h3 := block_eq 4 3 (by decide) x
  rw [blockSize_4] at h0 h1 h2 h3
  norm_num at h0 h1 h2 h3
  refine ⟨x.toInt / 2 ^ 64, ?_⟩
  rw [h0, h1, h2, h3]; norm_num; omega

theorem shl_eq (z s : ℕ) : BitVec.ofNat 64 z <<< s = BitVec.ofInt 64 ((z : ℤ) * 2 ^ s) := by
  apply BitVec.eq_of_toNat_eq
  have : (z : ℤ) * 2 ^ s = ((z * 2 ^ s : ℕ) : ℤ) := by push_cast; rfl
  rw [this, BitVec.ofInt_natCast, BitVec.toNat_shiftLeft, BitVec.toNat_ofNat, BitVec.toNat_ofNat, Nat.shiftLeft_eq, Nat.mod_mul_mod]

theorem decode_int (nb : ℕ) (z : ℕ → ℕ) : decode nb z = BitVec.ofInt 64 ((table nb).map fun t => (z t.1 : ℤ) * 2 ^ t.2).sum := by
  unfold decode
  induction table nb with
  | nil => rfl
  | cons t l ih => rw [List.map_cons, List.sum_cons, List.map_cons, List.sum_cons, ofInt_add64, ih, shl_eq]

theorem decode_add (nb : ℕ) (z w : ℕ → ℕ) : decode nb (fun i => z i + w i) = decode nb z + decode nb w := by
  rw [decode_int, decode_int, decode_int, ← ofInt_add64]
  congr 1
  induction table nb with
  | nil => rfl
  | cons t l ih => simp only [List.map_cons, List.sum_cons, ih]; push_cast; ring

theorem decode_zero (nb : ℕ) : decode nb (fun _ => 0) = 0 := by
  rw [decode_int]
  have : ((table nb).map fun t : ℕ × ℕ => ((0 : ℕ) : ℤ) * 2 ^ t.2).sum = 0 := by
    induction table nb with
    | nil => rfl
    | cons t l ih => simp only [List.map_cons, List.sum_cons, ih]; simp
  rw [this]; rfl

theorem decode_sum (nb n : ℕ) (z : ℕ → ℕ → ℕ) : decode nb (fun i => ((List.range n).map fun k => z k i).sum) = ((List.range n).map fun k => decode nb (z k)).sum := by
  induction n with
  | zero => simpa using decode_zero nb
  | succ n ih =>
    simp only [List.range_succ, List.map_append, List.sum_append, List.map_cons, List.map_nil, List.sum_cons, List.sum_nil, add_zero]
    rw [decode_add, ih]

theorem mul_ofInt (x y : I64) : x * y = BitVec.ofInt 64 (x.toInt * y.toInt) := by rw [ofInt_mul64, ofInt_toInt, ofInt_toInt]

/-- The blocks of one product, put together. -/
theorem decode_product_3 (x y : I64) : decode 3 (fun i => block 3 (i % 3) x * block 3 (i / 3) y) = x * y := by
  rw [decode_int, mul_ofInt, ofInt_eq_iff]
  obtain ⟨p, hp⟩ := word_3 x
  obtain ⟨q, hq⟩ := word_3 y
  rw [show table 3 = [(0, 0), (1, 22), (2, 44), (3, 22), (4, 44), (6, 44)] from rfl]
  simp only [List.map_cons, List.map_nil, List.sum_cons, List.sum_nil, Nat.reduceMod, Nat.reduceDiv]
  generalize hx : x.toInt = X at *
  generalize hy : y.toInt = Y at *
  subst hp hq
  push_cast
  generalize (block 3 0 x : ℤ) = a; generalize (block 3 1 x : ℤ) = b; generalize (block 3 2 x : ℤ) = c
  generalize (block 3 0 y : ℤ) = d; generalize (block 3 1 y : ℤ) = e; generalize (block 3 2 y : ℤ) = f
  exact ⟨-(4 * (b * f + c * e) + 2 ^ 24 * (c * f) + p * (d + e * 2 ^ 22 + f * 2 ^ 44) + q * (a + b * 2 ^ 22 + c * 2 ^ 44) + 2 ^ 64 * p * q), by ring⟩

theorem decode_product_4 (x y : I64) : decode 4 (fun i => block 4 (i % 4) x * block 4 (i / 4) y) = x * y := by
  rw [decode_int, mul_ofInt, ofInt_eq_iff]
  obtain ⟨p, hp⟩ := word_4 x
  obtain ⟨q, hq⟩ := word_4 y
  rw [show table 4 = [(0, 0), (1, 16), (2, 32), (3, 48), (4, 16), (5, 32), (6, 48), (8, 32), (9, 48), (12, 48)] from rfl]
  simp only [List.map_cons, List.map_nil, List.sum_cons, List.sum_nil, Nat.reduceMod, Nat.reduceDiv]
  generalize hx : x.toInt = X at *
  generalize hy : y.toInt = Y at *
  subst hp hq
  push_cast
  generalize (block 4 0 x : ℤ) = a; generalize (block 4 1 x : ℤ) = b; generalize (block 4 2 x : ℤ) = c; generalize (block 4 3 x : ℤ) = g
  generalize (block 4 0 y : ℤ) = d; generalize (block 4 1 y : ℤ) = e; generalize (block 4 2 y : ℤ) = f; generalize (block 4 3 y : ℤ) = h
  exact ⟨-((b * h + c * f + g * e) + 2 ^ 16 * (c * h + g * f) + 2 ^ 32 * (g * h) + p * (d + e * 2 ^ 16 + f * 2 ^ 32 + h * 2 ^ 48) + q * (a + b * 2 ^ 16 + c * 2 ^ 32 + g * 2 ^ 48) + 2 ^ 64 * p * q), by ring⟩

theorem sum_le_mul (n b : ℕ) (f : ℕ → ℕ) (h : ∀ k, f k ≤ b) : ((List.range n).map f).sum ≤ n * b := by
  have := List.sum_le_card_nsmul ((List.range n).map f) b (by simp only [List.mem_map]; rintro _ ⟨k, _, rfl⟩; exact h k)
  simpa using this

/-- Any entry computed from blocks of `n` products whose sums fit a double. -/
theorem decode_exact (nb n : ℕ) (hnb : nb = 3 ∨ nb = 4) (order : ℕ → Order) (ho : Adds order n) (x y : ℕ → I64) (hn : n * (2 ^ blockSize nb - 1) ^ 2 ≤ 2 ^ 53)
    (hpos : 0 < n) :
    decode nb (fun i => (order i).sum fun k => fp64 (block nb (i % nb) (x k) * block nb (i / nb) (y k))) = ((List.range n).map fun k => x k * y k).sum := by
  have hb : blockSize nb ≤ 64 := by rcases hnb with rfl | rfl <;> decide
  have hle (i k : ℕ) : block nb (i % nb) (x k) * block nb (i / nb) (y k) ≤ (2 ^ blockSize nb - 1) ^ 2 := by
    rw [pow_two]; exact Nat.mul_le_mul (block_lt nb _ hb _) (block_lt nb _ hb _)
  have h1 : (2 ^ blockSize nb - 1) ^ 2 ≤ 2 ^ 53 := le_trans (Nat.le_mul_of_pos_left _ hpos) hn
  have e : (fun i => (order i).sum fun k => fp64 (block nb (i % nb) (x k) * block nb (i / nb) (y k))) =
      fun i => ((List.range n).map fun k => block nb (i % nb) (x k) * block nb (i / nb) (y k)).sum := by
    funext i
    have : (fun k => fp64 (block nb (i % nb) (x k) * block nb (i / nb) (y k))) = fun k => block nb (i % nb) (x k) * block nb (i / nb) (y k) := by
      funext k; exact fp64_exact (le_trans (hle i k) h1)
    rw [this]
    exact adds_sum _ (ho i) (le_trans (sum_le_mul n _ _ (hle i)) hn)
  rw [e, decode_sum nb n fun k i => block nb (i % nb) (x k) * block nb (i / nb) (y k)]
  congr 1
  refine List.map_congr_left fun k _ => ?_
  rcases hnb with rfl | rfl
  · exact decode_product_3 _ _
  · exact decode_product_4 _ _

theorem dot_range (terms : List (I64 × I64)) : dot terms = ((List.range terms.length).map fun k => (terms.getD k (0, 0)).1 * (terms.getD k (0, 0)).2).sum := by
  unfold dot
  congr 1
  refine List.ext_getElem (by simp) fun i h1 h2 => ?_
  simp only [List.getElem_map, List.getElem_range]
  rw [List.getD_eq_getElem _ _ (by simpa using h1)]

/-- **C47**: every entry of `matmul` with at most 2^21 products is the 64-bit dot product, in whatever order the products are added. (The code also accepts longer ones: see `C47_matmul_long_wrong`.) -/
theorem C47_matmul_partial (terms : List (I64 × I64)) (hn : terms.length ≤ 2 ^ 21) (hpos : 0 < terms.length) (order : ℕ → Order) (ho : Adds order terms.length) :
    matmul order terms = dot terms := by
  unfold matmul bilinear
  rw [dot_range]
  by_cases h : terms.length < 256
  · rw [if_pos h]
    refine decode_exact 3 _ (Or.inl rfl) order ho (fun k => (terms.getD k (0, 0)).1) (fun k => (terms.getD k (0, 0)).2) ?_ hpos
    rw [blockSize_3]; norm_num; omega
  · rw [if_neg h]
    refine decode_exact 4 _ (Or.inr rfl) order ho (fun k => (terms.getD k (0, 0)).1) (fun k => (terms.getD k (0, 0)).2) ?_ hpos
    rw [blockSize_4]; norm_num; omega

theorem range_mul (ke c : ℕ) (f : ℕ → ℕ → I64) (hc : 0 < c) :
    ((List.range (ke * c)).map fun k => f (k / c) (k % c)).sum = ((List.range ke).map fun p => ((List.range c).map fun ch => f p ch).sum).sum := by
  induction ke with
  | zero => simp
  | succ ke ih =>
    rw [Nat.succ_mul, List.range_add, List.map_append, List.sum_append, ih, List.range_succ, List.map_append, List.sum_append]
    simp only [List.map_map, List.map_cons, List.map_nil, List.sum_cons, List.sum_nil, add_zero]
    congr 2
    refine List.map_congr_left fun ch hch => ?_
    have hch := List.mem_range.1 hch
    simp only [Function.comp]
    rw [Nat.mul_comm ke c, Nat.mul_add_mod, Nat.mod_eq_of_lt hch, Nat.mul_add_div hc, Nat.div_eq_of_lt hch, add_zero]

/-- What the convolution computes, as `decode_exact` needs it. -/
theorem conv_eq (order : ℕ → Order) (ke c cOut : ℕ) (x : ℕ → ℕ → I64) (y : ℕ → ℕ → ℕ → I64) (o : ℕ) (hc : 0 < c) (ho : o < cOut) :
    conv order ke c cOut x y o = decode (if ke < 256 then 3 else 4) fun g => (order g).sum fun k =>
      fp64 (block (if ke < 256 then 3 else 4) (g % (if ke < 256 then 3 else 4)) (x (k / c) (k % c)) * block (if ke < 256 then 3 else 4) (g / (if ke < 256 then 3 else 4)) (y (k / c) o (k % c))) := by
  unfold conv spanX spanY
  dsimp only
  have h1 (g k : ℕ) : (g * c + k % c) / c = g := by rw [Nat.mul_comm, Nat.mul_add_div hc, Nat.div_eq_of_lt (Nat.mod_lt _ hc), add_zero]
  have h2 (g k : ℕ) : (g * c + k % c) % c = k % c := by rw [Nat.mul_comm, Nat.mul_add_mod, Nat.mod_mod]
  have h3 (g : ℕ) : (g * cOut + o) / cOut = g := by rw [Nat.mul_comm, Nat.mul_add_div (by omega), Nat.div_eq_of_lt ho, add_zero]
  have h4 (g : ℕ) : (g * cOut + o) % cOut = o := by rw [Nat.mul_comm, Nat.mul_add_mod, Nat.mod_eq_of_lt ho]
  simp only [h1, h2, h3, h4]

/-- **C47**: every entry of a convolution is the 64-bit convolution when the number of products, channels included, fits the chosen number of blocks: up to 512 for kernels below 256 elements and
2^21 for larger ones. -/
theorem C47_conv_partial (ke c cOut : ℕ) (hke : 0 < ke) (hc : 0 < c) (o : ℕ) (ho : o < cOut) (x : ℕ → ℕ → I64) (y : ℕ → ℕ → ℕ → I64)
    (hn : ke * c ≤ if ke < 256 then 512 else 2 ^ 21) (order : ℕ → Order) (hord : Adds order (ke * c)) : conv order ke c cOut x y o = convWord ke c x y o := by
  rw [conv_eq order ke c cOut x y o hc ho]
  unfold convWord
  rw [← range_mul ke c (fun p ch => x p ch * y p o ch) hc]
  refine decode_exact _ (ke * c) (by split <;> simp) order hord (fun k => x (k / c) (k % c)) (fun k => y (k / c) o (k % c)) ?_ (Nat.mul_pos hke hc)
  by_cases h : ke < 256
  · rw [if_pos h] at hn ⊢; rw [blockSize_3]; norm_num; omega
  · rw [if_neg h] at hn ⊢; rw [blockSize_4]; norm_num; omega

theorem window_blocks (window : List I64) :
    BitVec.ofInt 64 (((window.map (block 3 0)).sum : ℤ) + ((window.map (block 3 1)).sum : ℤ) * 2 ^ 22 + ((window.map (block 3 2)).sum : ℤ) * 2 ^ 44) = window.sum := by
  induction window with
  | nil => rfl
  | cons x l ih =>
    simp only [List.map_cons, List.sum_cons]
    rw [← ih]
    obtain ⟨q, hq⟩ := word_3 x
    conv_rhs => rw [← ofInt_toInt x, ← ofInt_add64]
    rw [ofInt_eq_iff, hq]
    push_cast
    exact ⟨-q, by ring⟩

theorem getD_range (window : List I64) (f : I64 → ℕ) : ((List.range window.length).map fun k => f (window.getD k 0)) = window.map f := by
  refine List.ext_getElem (by simp) fun i h1 h2 => ?_
  simp only [List.getElem_map, List.getElem_range]
  rw [List.getD_eq_getElem _ _ (by simpa using h2)]

/-- **C47**: `avg_pool2d` on the GPU is the 64-bit sum of the window divided with rounding to zero, for windows of up to 2^31 entries. -/
theorem C47_avg_pool (window : List I64) (hn : window.length ≤ 2 ^ 31) (order : ℕ → Order) (ho : Adds order window.length) (d : ℕ) :
    avgPool order window d = BitVec.ofInt 64 (window.sum.toInt.tdiv d) := by
  unfold avgPool
  have e (i : ℕ) : (order i).sum (fun k => block 3 i (window.getD k 0)) = (window.map (block 3 i)).sum := by
    have hs : ((List.range window.length).map fun k => block 3 i (window.getD k 0)).sum ≤ 2 ^ 53 := by
      refine le_trans (sum_le_mul window.length (2 ^ 22) _ fun k => le_trans (block_lt 3 i (by decide) _) (by rw [blockSize_3]; norm_num)) ?_
      calc window.length * 2 ^ 22 ≤ 2 ^ 31 * 2 ^ 22 := Nat.mul_le_mul_right _ hn
        _ = 2 ^ 53 := by norm_num
    rw [adds_sum _ (ho i) hs, getD_range]
  have hz : ((List.range 3).map fun i => BitVec.ofNat 64 ((order i).sum fun k => block 3 i (window.getD k 0)) <<< (blockSize 3 * i)).sum = window.sum := by
    rw [← window_blocks window]
    simp only [e, shl_eq, show List.range 3 = [0, 1, 2] from rfl, List.map_cons, List.map_nil, List.sum_cons, List.sum_nil, blockSize_3, ← ofInt_add64, add_zero]
    congr 1
    norm_num; ring
  rw [hz]

/-- A double above 2^53 is even. -/
theorem fp64_parity (m : ℕ) : fp64 m ≤ 2 ^ 53 ∨ fp64 m % 2 = 0 := by
  unfold fp64
  split
  · left; assumption
  · right
    rename_i h
    have hl : 53 ≤ Nat.log2 m := by
      by_contra hlt
      have := (Nat.log2_lt (by omega : m ≠ 0)).1 (by omega : m.log2 < 53)
      omega
    obtain ⟨e, he⟩ : ∃ e, Nat.log2 m - 52 = e + 1 := ⟨Nat.log2 m - 53, by omega⟩
    dsimp only
    rw [he]
    split
    · rw [pow_succ, ← Nat.mul_assoc, Nat.mul_mod_left]
    · rw [pow_succ, ← Nat.mul_assoc, Nat.mul_mod_left]

theorem order_parity (f : ℕ → ℕ) (hf : ∀ k, f k ≤ 2 ^ 53) (o : Order) : o.sum f ≤ 2 ^ 53 ∨ o.sum f % 2 = 0 := by
  cases o with
  | leaf k => left; exact hf k
  | node l r => exact fp64_parity _

theorem order_zero (o : Order) : o.sum (fun _ => 0) = 0 := by
  induction o with
  | leaf k => rfl
  | node l r a b => rw [Order.sum, a, b]; rfl

/-- If all operands are `2^bks - 1` and the number of products is odd and too large, no order of the additions gives the right sum. -/
theorem decode_inexact (nb n : ℕ) (hnb : nb = 3 ∨ nb = 4) (hodd : n % 2 = 1) (hn : 2 ^ 53 < n * (2 ^ blockSize nb - 1) ^ 2) (hlt : n * (2 ^ blockSize nb - 1) ^ 2 < 2 ^ 64) (order : ℕ → Order) :
    decode nb (fun i => (order i).sum fun _ => fp64 (block nb (i % nb) (BitVec.ofNat 64 (2 ^ blockSize nb - 1)) * block nb (i / nb) (BitVec.ofNat 64 (2 ^ blockSize nb - 1)))) ≠
      BitVec.ofNat 64 (n * (2 ^ blockSize nb - 1) ^ 2) := by
  have key (z : ℕ) (hz : z ≤ 2 ^ 53 ∨ z % 2 = 0) : BitVec.ofNat 64 z ≠ BitVec.ofNat 64 (n * (2 ^ blockSize nb - 1) ^ 2) := by
    intro e
    have e := congrArg BitVec.toNat e
    rw [BitVec.toNat_ofNat, BitVec.toNat_ofNat, Nat.mod_eq_of_lt hlt] at e
    have hp : n * (2 ^ blockSize nb - 1) ^ 2 % 2 = 1 := by
      rcases hnb with rfl | rfl
      · rw [Nat.mul_mod, hodd]; decide
      · rw [Nat.mul_mod, hodd]; decide
    generalize n * (2 ^ blockSize nb - 1) ^ 2 = m at *
    omega
  rcases hnb with rfl | rfl
  · unfold decode
    rw [show table 3 = [(0, 0), (1, 22), (2, 44), (3, 22), (4, 44), (6, 44)] from rfl]
    simp only [List.map_cons, List.map_nil, List.sum_cons, List.sum_nil, Nat.reduceMod, Nat.reduceDiv]
    have b0 : block 3 0 (BitVec.ofNat 64 (2 ^ blockSize 3 - 1)) = 2 ^ 22 - 1 := by decide
    have b1 : block 3 1 (BitVec.ofNat 64 (2 ^ blockSize 3 - 1)) = 0 := by decide
    have b2 : block 3 2 (BitVec.ofNat 64 (2 ^ blockSize 3 - 1)) = 0 := by decide
    simp only [b0, b1, b2, Nat.mul_zero, Nat.zero_mul, show fp64 0 = 0 from rfl, order_zero]
    simpa using key _ (order_parity (fun _ => fp64 17592177655809) (fun _ => by decide) (order 0))
  · unfold decode
    rw [show table 4 = [(0, 0), (1, 16), (2, 32), (3, 48), (4, 16), (5, 32), (6, 48), (8, 32), (9, 48), (12, 48)] from rfl]
    simp only [List.map_cons, List.map_nil, List.sum_cons, List.sum_nil, Nat.reduceMod, Nat.reduceDiv]
    have b0 : block 4 0 (BitVec.ofNat 64 (2 ^ blockSize 4 - 1)) = 2 ^ 16 - 1 := by decide
    have b1 : block 4 1 (BitVec.ofNat 64 (2 ^ blockSize 4 - 1)) = 0 := by decide
    have b2 : block 4 2 (BitVec.ofNat 64 (2 ^ blockSize 4 - 1)) = 0 := by decide
    have b3 : block 4 3 (BitVec.ofNat 64 (2 ^ blockSize 4 - 1)) = 0 := by decide
    simp only [b0, b1, b2, b3, Nat.mul_zero, Nat.zero_mul, show fp64 0 = 0 from rfl, order_zero]
    simpa using key _ (order_parity (fun _ => fp64 4294836225) (fun _ => by decide) (order 0))

theorem sum_const (n m : ℕ) (w : ℕ → I64) (hw : ∀ k, w k = BitVec.ofNat 64 m) : ((List.range n).map w).sum = BitVec.ofNat 64 (n * m) := by
  induction n with
  | zero => simp
  | succ n ih =>
    rw [List.range_succ, List.map_append, List.sum_append, ih, List.map_singleton, List.sum_singleton, hw, ← BitVec.ofNat_add, Nat.succ_mul]

/-- **C47 fails** for convolutions with many channels: the number of blocks is chosen from the kernel elements alone, so for a 1×1 convolution (one kernel element) with 513 input channels and all
operands equal to 2^22 - 1 no order of the additions gives the right word. -/
theorem C47_conv_channels_wrong (order : ℕ → Order) :
    conv order 1 513 1 (fun _ _ => BitVec.ofNat 64 (2 ^ 22 - 1)) (fun _ _ _ => BitVec.ofNat 64 (2 ^ 22 - 1)) 0 ≠
      convWord 1 513 (fun _ _ => BitVec.ofNat 64 (2 ^ 22 - 1)) (fun _ _ _ => BitVec.ofNat 64 (2 ^ 22 - 1)) 0 := by
  rw [conv_eq order 1 513 1 _ _ 0 (by norm_num) (by norm_num)]
  have e : convWord 1 513 (fun _ _ => BitVec.ofNat 64 (2 ^ 22 - 1)) (fun _ _ _ => BitVec.ofNat 64 (2 ^ 22 - 1)) 0 = BitVec.ofNat 64 (513 * (2 ^ blockSize 3 - 1) ^ 2) := by
    unfold convWord
    rw [show List.range 1 = [0] from rfl, List.map_singleton, List.sum_singleton]
    exact sum_const 513 _ _ fun _ => rfl
  rw [e]
  exact decode_inexact 3 513 (Or.inl rfl) (by decide) (by rw [blockSize_3]; norm_num) (by rw [blockSize_3]; norm_num) order

theorem order_congr {f g : ℕ → ℕ} (o : Order) (h : ∀ k ∈ o.leaves, f k = g k) : o.sum f = o.sum g := by
  induction o with
  | leaf k => exact h k (by simp [Order.leaves])
  | node l r a b => rw [Order.sum, Order.sum, a fun k hk => h k (by simp [Order.leaves, hk]), b fun k hk => h k (by simp [Order.leaves, hk])]

/-- **C47 fails** for very long dot products: with 2097217 products of 2^16 - 1 no order of the additions gives the right word. -/
theorem C47_matmul_long_wrong (order : ℕ → Order) (ho : Adds order 2097217) : matmul order (List.replicate 2097217 (65535, 65535)) ≠ dot (List.replicate 2097217 (65535, 65535)) := by
  have hg (k : ℕ) (hk : k < 2097217) : (List.replicate 2097217 ((65535, 65535) : I64 × I64)).getD k (0, 0) = (65535, 65535) := by
    generalize 2097217 = n at *
    rw [List.getD_eq_getElem _ _ (by rw [List.length_replicate]; exact hk), List.getElem_replicate]
  rw [dot_range]
  unfold matmul bilinear
  rw [List.length_replicate, if_neg (by norm_num)]
  have e1 : ((List.range 2097217).map fun k => ((List.replicate 2097217 ((65535, 65535) : I64 × I64)).getD k (0, 0)).1 * ((List.replicate 2097217 ((65535, 65535) : I64 × I64)).getD k (0, 0)).2) =
      (List.range 2097217).map fun _ => BitVec.ofNat 64 ((2 ^ blockSize 4 - 1) ^ 2) :=
    List.map_congr_left fun k hk => by rw [hg k (List.mem_range.1 hk)]; rfl
  rw [e1, sum_const 2097217 ((2 ^ blockSize 4 - 1) ^ 2) _ fun _ => rfl]
  have e2 : (fun idx => (order idx).sum fun k => fp64 (block 4 (idx % 4) ((List.replicate 2097217 ((65535, 65535) : I64 × I64)).getD k (0, 0)).1 * block 4 (idx / 4) ((List.replicate 2097217 ((65535, 65535) : I64 × I64)).getD k (0, 0)).2)) =
      fun idx => (order idx).sum fun _ => fp64 (block 4 (idx % 4) (BitVec.ofNat 64 (2 ^ blockSize 4 - 1)) * block 4 (idx / 4) (BitVec.ofNat 64 (2 ^ blockSize 4 - 1))) := by
    funext idx
    refine order_congr _ fun k hk => ?_
    rw [hg k (List.mem_range.1 ((ho idx).mem_iff.1 hk))]; rfl
  rw [e2]
  exact decode_inexact 4 2097217 (Or.inr rfl) (by decide) (by rw [blockSize_4]; norm_num) (by rw [blockSize_4]; norm_num) order

/-- The order from left to right. -/
def sequential : ℕ → Order
  | 0 => .leaf 0
  | n + 1 => .node (sequential n) (.leaf (n + 1))

theorem sequential_adds (n : ℕ) : Adds (fun _ => sequential n) (n + 1) := by
  intro _
  induction n with
  | zero => exact List.Perm.refl _
  | succ n ih => rw [List.range_succ]; exact ih.append_right _

/-- Concrete cases. -/
example : matmul (fun _ => sequential 2) [(-5, 2 ^ 40), (2 ^ 63, 3), (7, -11)] = dot [(-5, 2 ^ 40), (2 ^ 63, 3), (7, -11)] := C47_matmul_partial _ (by decide) (by decide) _ (sequential_adds 2)
example : dot [(-5, 2 ^ 40), (2 ^ 63, 3), (7, -11)] = 9223366539296636851#64 := by decide
example (x : ℕ → ℕ → I64) (y : ℕ → ℕ → ℕ → I64) : conv (fun _ => sequential 26) 9 3 5 x y 4 = convWord 9 3 x y 4 :=
  C47_conv_partial 9 3 5 (by decide) (by decide) 4 (by decide) x y (by decide) _ (sequential_adds 26)

end CrypTen.Cuda

import Verif.Model.Beaver
import Verif.Lemmas.Linear
import Verif.Lemmas.Binary
import Mathlib.Data.Set.Card

/-!
# C03 (local binary operations), C09–C13: Beaver protocols
-/

namespace CrypTen
variable {n : ℕ} {ι ι' κ : Type}

/-! ## C03: local operations on XOR shares -/

/-- **C03 (local operations).** XOR with a shared or public word, AND/OR with a public word, NOT and shifts act on the revealed word as the
plaintext operation, for every number of parties and every sharing. -/
theorem C03_local_operations [NeZero n] (s t : Shares n ι) (y : Tensor ι) (k : ℕ) (i : ι) :
    revealX (xorShares s t) i = revealX s i ^^^ revealX t i ∧
    revealX (xorPublic s y) i = revealX s i ^^^ y i ∧
    revealX (andPublic s y) i = revealX s i &&& y i ∧
    revealX (orPublic s y) i = revealX s i ||| y i ∧
    revealX (notShares s) i = ~~~ revealX s i ∧
    revealX (lshiftShares s k) i = revealX s i <<< k ∧
    revealX (rshiftShares s k) i = (revealX s i).sshiftRight k := by
  refine ⟨revealX_xorShares s t i, revealX_xorPublic s y i, revealX_andPublic s y i, ?_, revealX_notShares s i,
    revealX_lshift s k i, revealX_rshift s k i⟩
  rw [orPublic, revealX_xorPublic, revealX_xorShares, revealX_andPublic]
  ext b hb
  simp only [BitVec.getElem_xor, BitVec.getElem_and, BitVec.getElem_or]
  cases (revealX s i)[b] <;> cases (y i)[b] <;> rfl

example : revealX (rshiftShares (fun (p : Fin 3) (_ : Unit) => if p = 1 then (0x8000000000000000#64) else 6#64) 62) () =
    0xfffffffffffffffe#64 := by decide

/-! ## C09, C10: products and squares -/

/-- **C09.** For every bilinear function (elementwise, matrix, convolution and transposed convolution products are instances), every
number of parties, every sharing of the operands and every valid triple, the shares computed by the protocol sum to the product. -/
theorem C09_beaver_product [NeZero n] (T : BilinearOp ι ι' κ) (t : MulTriple n ι ι' κ) (ht : t.Valid T)
    (x : Shares n ι) (y : Shares n ι') : reveal (beaverProduct T t x y) = T.apply (reveal x) (reveal y) := by
  unfold beaverProduct
  simp only [beaverOpen]
  rw [reveal_addPublic, reveal_subShares, reveal_subShares]
  have h : ∀ (e : Tensor ι) (d : Tensor ι'),
      reveal (fun p => t.c p + T.apply e (t.b p) + T.apply (t.a p) d) =
        reveal t.c + T.apply e (reveal t.b) + T.apply (reveal t.a) d := by
    intro e d
    simp only [reveal, Finset.sum_add_distrib, apply_sum_left, apply_sum_right]
  rw [h, ht]
  simp only [apply_sub_left, apply_sub_right]
  abel

/-- **C09 (instances).** Elementwise multiplication and matrix multiplication, spelled out in each entry. -/
theorem C09_mul_and_matmul [NeZero n] (m l p : ℕ)
    (t : MulTriple n ι ι ι) (ht : t.Valid (Torch.mulOp id id)) (x y : Shares n ι)
    (t' : MulTriple n (Fin m × Fin l) (Fin l × Fin p) (Fin m × Fin p)) (ht' : t'.Valid (Torch.matmulOp m l p))
    (X : Shares n (Fin m × Fin l)) (Y : Shares n (Fin l × Fin p)) :
    (∀ i, reveal (beaverProduct (Torch.mulOp id id) t x y) i = reveal x i * reveal y i) ∧
    (∀ i j, reveal (beaverProduct (Torch.matmulOp m l p) t' X Y) (i, j) = ∑ k, reveal X (i, k) * reveal Y (k, j)) := by
  constructor
  · intro i
    rw [C09_beaver_product _ _ ht]
    simp [BilinearOp.apply, Torch.mulOp]
  · intro i j
    rw [C09_beaver_product _ _ ht']
    simp only [BilinearOp.apply, Torch.matmulOp, List.map_map]
    rw [← List.sum_ofFn, List.ofFn_eq_map]
    rfl

/-- Non-vacuity: a valid two-party triple with non-trivial shares. -/
example : MulTriple.Valid (n := 2) (ι := Unit) (ι' := Unit) (κ := Unit)
    { a := fun p _ => if p = 0 then 10 else -7, b := fun p _ => if p = 0 then 100 else -95, c := fun p _ => if p = 0 then 1015 else -1000 }
    (Torch.mulOp id id) := by
  funext i; cases i; decide

/-- **C10.** The square protocol reveals the square. -/
theorem C10_beaver_square [NeZero n] (t : SquarePair n ι) (ht : t.Valid) (x : Shares n ι) (i : ι) :
    reveal (beaverSquare t x) i = reveal x i * reveal x i := by
  unfold beaverSquare
  simp only [squareOpen]
  rw [reveal_addPublic, reveal_addShares, reveal_mulInt, reveal_mulInt, reveal_subShares]
  simp only [Pi.add_apply, Pi.mul_apply, Pi.sub_apply, ht i]
  ring

example : SquarePair.Valid (n := 3) (ι := Unit) { r := fun p _ => if p = 0 then 5 else -1, r2 := fun p _ => if p = 2 then 9 else 0 } := by
  intro i; cases i; decide

/-! ## C11: active security -/

/-- The checked value in closed form: scale times the error of the triple, minus the error of the verification triple. -/
theorem C11_check_value [NeZero n] (t : Tensor ι) (u v : MulTriple n ι ι ι) (i : ι) :
    activeCheck t u v i =
      t i * (reveal u.c i - reveal u.a i * reveal u.b i) - (reveal v.c i - reveal v.a i * reveal v.b i) := by
  unfold activeCheck
  simp only [reveal_subPublic, reveal_subShares, reveal_mulInt, Pi.sub_apply, Pi.mul_apply]
  ring

/-- **C11 (honest runs), elementwise products.** With valid triples for elementwise multiplication the check passes for every scale. The
full claim covers every product; for matrix products it is false, see below. -/
theorem C11_honest_never_rejected_partial [NeZero n] (t : Tensor ι) (u v : MulTriple n ι ι ι)
    (hu : u.Valid (Torch.mulOp id id)) (hv : v.Valid (Torch.mulOp id id)) : activeVerify t u v := by
  intro i
  rw [C11_check_value]
  have h1 := congrFun hu i; have h2 := congrFun hv i
  simp only [BilinearOp.apply, Torch.mulOp, List.map_cons, List.map_nil, List.sum_cons, List.sum_nil, add_zero, id] at h1 h2
  rw [h1, h2]; ring

/-- **C11 (soundness).** If the check passes, then at every entry the scaled error of the triple equals the error of the verification triple. -/
theorem C11_passing_implies_error_relation [NeZero n] (t : Tensor ι) (u v : MulTriple n ι ι ι) (h : activeVerify t u v) (i : ι) :
    t i * (reveal u.c i - reveal u.a i * reveal u.b i) = reveal v.c i - reveal v.a i * reveal v.b i := by
  have := h i
  rw [C11_check_value] at this
  exact sub_eq_zero.1 this

/-- **C11 (detection).** For a triple that is wrong at entry `i`, of any two consecutive scales at least one is rejected – so at most every
second scale lets an error pass. -/
theorem C11_wrong_triple_caught_by_every_second_scale [NeZero n] (t t' : Tensor ι) (u v : MulTriple n ι ι ι) (i : ι)
    (hwrong : reveal u.c i ≠ reveal u.a i * reveal u.b i) (hsucc : t' i = t i + 1) :
    ¬ (activeVerify t u v ∧ activeVerify t' u v) := by
  rintro ⟨h, h'⟩
  have e := C11_passing_implies_error_relation t u v h i
  have e' := C11_passing_implies_error_relation t' u v h' i
  rw [hsucc, add_mul, e, one_mul, add_eq_left] at e'
  exact hwrong (sub_eq_zero.1 e')

/-- A triple wrong by an odd amount passes for at most one scale. -/
theorem C11_odd_error_passes_one_scale [NeZero n] (t t' : Tensor ι) (u v : MulTriple n ι ι ι) (i : ι)
    (w : I64) (hodd : w * (reveal u.c i - reveal u.a i * reveal u.b i) = 1)
    (h : activeVerify t u v) (h' : activeVerify t' u v) : t i = t' i := by
  have e := C11_passing_implies_error_relation t u v h i
  have e' := C11_passing_implies_error_relation t' u v h' i
  rw [← e'] at e
  have := congrArg (· * w) e
  simp only [mul_assoc] at this
  rw [mul_comm _ w, hodd] at this
  simpa using this

/-- Errors of `2^63` pass for every even scale: the check has no better guarantee than the previous theorem. -/
theorem C11_even_scale_misses_error : ∃ (u v : MulTriple 2 Unit Unit Unit), v.Valid (Torch.mulOp id id) ∧
    reveal u.c () ≠ reveal u.a () * reveal u.b () ∧ ∀ t : Tensor Unit, (t ()).toNat % 2 = 0 → activeVerify t u v := by
  refine ⟨⟨0, 0, fun p _ => if p = 0 then 0x8000000000000000#64 else 0⟩, ⟨0, 0, 0⟩, ?_, ?_, ?_⟩
  · funext i; rfl
  · decide
  · intro t ht i
    rw [C11_check_value]
    have h1 : reveal (fun (p : Fin 2) (_ : Unit) => if p = 0 then 0x8000000000000000#64 else 0) i = 0x8000000000000000#64 := rfl
    have h0 : reveal (0 : Shares 2 Unit) i = 0 := rfl
    rw [h1, h0]
    simp only [mul_zero, sub_zero]
    apply BitVec.eq_of_toNat_eq
    have : i = () := rfl
    subst this
    rw [BitVec.toNat_mul]
    generalize (t ()).toNat = m at *
    obtain ⟨k, rfl⟩ : ∃ k, m = 2 * k := ⟨m / 2, by omega⟩
    show 2 * k * 9223372036854775808 % 2 ^ 64 = 0
    norm_num
    omega

/-- **C11 is refuted for matrix products.** An honest run with valid matrix-multiplication triples (2×2) is rejected. -/
theorem C11_honest_matmul_rejected :
    ∃ (t : Tensor (Fin 2 × Fin 2)) (u v : MulTriple 2 (Fin 2 × Fin 2) (Fin 2 × Fin 2) (Fin 2 × Fin 2)),
      u.Valid (Torch.matmulOp 2 2 2) ∧ v.Valid (Torch.matmulOp 2 2 2) ∧ ¬ activeVerify t u v := by
  refine ⟨fun _ => 1, ⟨fun p _ => if p = 0 then 1 else 0, fun p _ => if p = 0 then 1 else 0, fun p _ => if p = 0 then 2 else 0⟩,
    ⟨0, 0, 0⟩, ?_, ?_, ?_⟩
  · funext ⟨i, j⟩; revert i j; decide
  · funext ⟨i, j⟩; revert i j; decide
  · intro h
    have := h (0, 0)
    rw [C11_check_value] at this
    revert this
    decide

/-- Non-vacuity of the detection theorem: a wrong triple and two consecutive scales. -/
example : reveal (n := 2) (ι := Unit) (fun p _ => if p = 0 then 8 else 0) () ≠
    reveal (n := 2) (ι := Unit) (fun _ _ => 1) () * reveal (n := 2) (ι := Unit) (fun _ _ => 1) () := by decide

/-! ## C12: binary protocols -/

/-- **C12 (AND, OR).** -/
theorem C12_and_or [NeZero n] (t : BinTriple n ι) (ht : t.Valid) (x y : Shares n ι) (i : ι) :
    revealX (beaverAnd t x y) i = revealX x i &&& revealX y i ∧
    revealX (beaverOr t x y) i = revealX x i ||| revealX y i ∧
    revealX (beaverIOr t x y) i = revealX x i ||| revealX y i := by
  have hand : revealX (beaverAnd t x y) i = revealX x i &&& revealX y i := by
    unfold beaverAnd
    simp only [andOpen]
    rw [revealX_xorShares, revealX_xorPublic, revealX_xorShares, revealX_andPublic, revealX_andPublic, ht i,
      revealX_xorShares, revealX_xorShares]
    generalize revealX x i = X; generalize revealX y i = Y; generalize revealX t.a i = A; generalize revealX t.b i = B
    ext b hb
    simp only [BitVec.getElem_xor, BitVec.getElem_and]
    cases X[b] <;> cases Y[b] <;> cases A[b] <;> cases B[b] <;> rfl
  refine ⟨hand, ?_, ?_⟩
  · rw [beaverOr, revealX_xorShares, revealX_xorShares, hand]
    ext b hb
    simp only [BitVec.getElem_xor, BitVec.getElem_and, BitVec.getElem_or]
    cases (revealX x i)[b] <;> cases (revealX y i)[b] <;> rfl
  · rw [beaverIOr, revealX_xorShares, revealX_xorShares, hand]
    ext b hb
    simp only [BitVec.getElem_xor, BitVec.getElem_and, BitVec.getElem_or]
    cases (revealX x i)[b] <;> cases (revealX y i)[b] <;> rfl

theorem boolI64_xor (a b : Bool) : boolI64 a ^^^ boolI64 b = boolI64 (a ^^ b) := by cases a <;> cases b <;> rfl

/-- **C12 (single-bit conversion).** For an XOR-shared bit and any valid pair, the result reveals that bit as a ring element. -/
theorem C12_b2a_single_bit [NeZero n] (t : B2APair n ι) (ht : t.Valid) (xB : Shares n ι) (i : ι) (bit : Bool)
    (hx : revealX xB i = boolI64 bit) : reveal (b2aSingleBit t xB) i = boolI64 bit := by
  unfold b2aSingleBit
  split
  · next h1 =>
    have : n = 1 := by have := NeZero.ne n; omega
    subst this
    rw [revealX_apply] at hx
    rw [reveal_apply, Fin.sum_univ_one, ← hx]
    have : (fun p => xB p i) = fun p => if p = (0 : Fin 1) then xB 0 i else 0#64 := by
      funext p; rw [Fin.eq_zero p]; rfl
    rw [this, xsum_single]
  · obtain ⟨r, h1, h2⟩ := ht i
    simp only [b2aOpen]
    rw [reveal_addPublic, reveal_mulInt]
    simp only [Pi.add_apply, Pi.mul_apply, revealX_xorShares, h1, h2, hx]
    cases bit <;> cases r <;> rfl

/-- Non-vacuity: valid binary triple and bit pair over three parties. -/
example : BinTriple.Valid (n := 3) (ι := Unit) ⟨fun _ _ => 0b1100#64, fun p _ => if p = 1 then 0b1010#64 else 7, fun p _ => if p = 2 then 0b1000#64 else 5⟩ ∧
    B2APair.Valid (n := 3) (ι := Unit) ⟨fun p _ => if p = 0 then 3 else -1, fun p _ => if p = 0 then 1 else 0⟩ := by
  constructor
  · intro i; cases i; decide
  · intro i; cases i; exact ⟨true, by decide, by decide⟩

/-! ## C13: the opened values reveal nothing -/

/-- **C13 (products).** For fixed operand shares, the messages `(x_p - a_p, y_p - b_p)` every party contributes to the opening take every value
for exactly one choice of the triple's random shares: as functions of uniform `a`, `b` they are uniform whatever the operands are. -/
theorem C13_product_messages_uniform (x : Shares n ι) (y : Shares n ι') (ex : Shares n ι) (ey : Shares n ι') :
    ∃! ab : Shares n ι × Shares n ι', subShares x ab.1 = ex ∧ subShares y ab.2 = ey := by
  refine ⟨(subShares x ex, subShares y ey), ⟨?_, ?_⟩, ?_⟩
  · funext p; simp [subShares]
  · funext p; simp [subShares]
  · rintro ⟨a, b⟩ ⟨rfl, rfl⟩
    ext1 <;> · funext p; simp [subShares]

/-- **C13 (products, opened values).** For given operands the opened pair `(epsilon, delta)` occurs for exactly one pair of secrets `(a, b)`
of the triple. -/
theorem C13_product_opening_bijective (x : Shares n ι) (y : Shares n ι') (t : MulTriple n ι ι' κ) (e : Tensor ι) (d : Tensor ι') :
    beaverOpen t x y = (e, d) ↔ reveal t.a = reveal x - e ∧ reveal t.b = reveal y - d := by
  simp only [beaverOpen, reveal_subShares, Prod.mk.injEq]
  constructor
  · rintro ⟨rfl, rfl⟩; constructor <;> abel
  · rintro ⟨h1, h2⟩; rw [h1, h2]; constructor <;> abel

/-- **C13 (square).** -/
theorem C13_square_opening_bijective (x : Shares n ι) (t : SquarePair n ι) (e : Tensor ι) :
    (squareOpen t x = e ↔ reveal t.r = reveal x - e) ∧ (∀ m : Shares n ι, ∃! r : Shares n ι, subShares x r = m) := by
  constructor
  · simp only [squareOpen, reveal_subShares]
    constructor
    · rintro rfl; abel
    · intro h; rw [h]; abel
  · intro m
    refine ⟨subShares x m, by funext p; simp [subShares], ?_⟩
    rintro r rfl; funext p; simp [subShares]

theorem xor_eq_iff (a b c : I64) : a ^^^ b = c ↔ b = a ^^^ c := by
  constructor
  · rintro rfl; rw [← BitVec.xor_assoc, BitVec.xor_self, BitVec.zero_xor]
  · rintro rfl; rw [← BitVec.xor_assoc, BitVec.xor_self, BitVec.zero_xor]

/-- **C13 (AND and single-bit conversion).** -/
theorem C13_binary_openings_bijective (x y : Shares n ι) (t : BinTriple n ι) (u : B2APair n ι) (e d z : Tensor ι) :
    (andOpen t x y = (e, d) ↔ (∀ i, revealX t.a i = revealX x i ^^^ e i) ∧ (∀ i, revealX t.b i = revealX y i ^^^ d i)) ∧
    (b2aOpen u x = z ↔ ∀ i, revealX u.rB i = revealX x i ^^^ z i) := by
  constructor
  · simp only [andOpen, Prod.mk.injEq]
    constructor
    · rintro ⟨rfl, rfl⟩
      refine ⟨fun i => ?_, fun i => ?_⟩ <;> rw [← xor_eq_iff, revealX_xorShares]
    · rintro ⟨h1, h2⟩
      refine ⟨funext fun i => ?_, funext fun i => ?_⟩
      · rw [revealX_xorShares, xor_eq_iff, h1 i]
      · rw [revealX_xorShares, xor_eq_iff, h2 i]
  · simp only [b2aOpen]
    constructor
    · rintro rfl i; rw [← xor_eq_iff, revealX_xorShares]
    · intro h; funext i; rw [revealX_xorShares, xor_eq_iff, h i]

/-- **C13 (secrecy as a count).** For any two pairs of operands and any opened values, equally many choices of the triple's secrets produce
those values. -/
theorem C13_opening_counts_equal (x x' : Tensor ι) (y y' : Tensor ι') (e : Tensor ι) (d : Tensor ι') :
    Set.ncard {ab : Tensor ι × Tensor ι' | (x - ab.1, y - ab.2) = (e, d)} =
    Set.ncard {ab : Tensor ι × Tensor ι' | (x' - ab.1, y' - ab.2) = (e, d)} := by
  have h : ∀ (x : Tensor ι) (y : Tensor ι'), {ab : Tensor ι × Tensor ι' | (x - ab.1, y - ab.2) = (e, d)} = {(x - e, y - d)} := by
    intro x y
    ext ⟨a, b⟩
    simp only [Set.mem_ofPred_eq, Prod.mk.injEq, Set.mem_singleton_iff]
    constructor
    · rintro ⟨rfl, rfl⟩; constructor <;> abel
    · rintro ⟨rfl, rfl⟩; constructor <;> abel
  rw [h x y, h x' y', Set.ncard_singleton, Set.ncard_singleton]

end CrypTen

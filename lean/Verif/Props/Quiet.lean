import Verif.Props.Program
import Verif.Props.Network

/-!
# Runs that no wrap-around spoils

The accuracy theorems (C53, C72, C93 and others) speak of runs in which no local truncation wraps around. This module shows that for every number of parties, every function and every program
there are such runs: with the tuples `quiet`, in which all random numbers are zero, one party holds everything after each product, and no truncation goes wrong.
-/

namespace CrypTen
variable {n : ℕ} {ι ι' κ : Type}

/-- All random numbers are zero. -/
def quiet (n : ℕ) : Tuples n where
  mul _ _ _ _ _ := ⟨0, 0, 0⟩
  square _ _ := ⟨0, 0⟩
  bin _ _ := ⟨fun _ _ => 0#64, fun _ _ => 0#64, fun _ _ => 0#64⟩
  b2a _ _ := ⟨0, fun _ _ => 0#64⟩
  wrap _ _ := ⟨0, 0⟩
  zeroA _ _ := 0
  zeroX _ _ := fun _ _ => 0#64
  kbit _ _ _ := fun _ _ => 0#64

theorem reveal_zero (i : ι) : reveal (0 : Shares n ι) i = 0 := by rw [reveal_apply]; simp

theorem revealX_zero [NeZero n] (i : ι) : revealX (fun (_ : Fin n) (_ : ι) => 0#64) i = 0#64 := by
  have := xsum_single (n := n) 0 0#64
  rw [revealX_apply]
  simpa using this

theorem countWrapsLoop_zero (l : List I64) (h : ∀ x ∈ l, x = 0#64) (prev : I64) : countWrapsLoop prev 0#64 l = 0#64 := by
  induction l generalizing prev with
  | nil => rfl
  | cons a l ih =>
    obtain rfl := h a (by simp)
    have e : countWrapsLoop prev 0#64 (0#64 :: l) = countWrapsLoop (0#64 + prev) 0#64 l := by
      show countWrapsLoop (0#64 + prev) (0#64 - boolI64 (decide (prev.toInt < 0) && decide ((0#64).toInt < 0) && decide ((0#64 + prev).toInt > 0)) + boolI64 (decide (prev.toInt > 0) && decide ((0#64).toInt > 0) && decide ((0#64 + prev).toInt < 0))) l = _
      have e1 : decide ((0#64).toInt < 0) = false := rfl
      have e2 : decide ((0#64).toInt > 0) = false := rfl
      rw [e1, e2]
      simp
    rw [e]
    exact ih (fun x hx => h x (by simp [hx])) _

theorem countWraps_alone (a : I64) (l : List I64) (h : ∀ x ∈ l, x = 0#64) : countWraps (a :: l) = 0#64 := countWrapsLoop_zero l h a

theorem minCollisionsFrom_zero (l : List I64) (h : ∀ x ∈ l, x = 0#64) (prev : I64) : minCollisionsFrom prev l = 0 := by
  induction l generalizing prev with
  | nil => rfl
  | cons a l ih =>
    obtain rfl := h a (by simp)
    rw [minCollisionsFrom, if_neg (fun h => absurd h.2 (by decide)), ih (fun x hx => h x (by simp [hx]))]

theorem minCollisions_alone (a : I64) (l : List I64) (h : ∀ x ∈ l, x = 0#64) : minCollisions (a :: l) = 0 := minCollisionsFrom_zero l h a

theorem ofFn_alone [NeZero n] (f : Fin n → I64) (h : ∀ p, p ≠ 0 → f p = 0#64) : ∃ l, List.ofFn f = f 0 :: l ∧ ∀ x ∈ l, x = 0#64 := by
  obtain ⟨m, rfl⟩ : ∃ m, n = m + 1 := ⟨n - 1, (Nat.succ_pred_eq_of_ne_zero (NeZero.ne n)).symm⟩
  refine ⟨List.ofFn fun i : Fin m => f i.succ, List.ofFn_succ, fun x hx => ?_⟩
  obtain ⟨i, rfl⟩ := List.mem_ofFn.1 hx
  exact h _ (Fin.succ_ne_zero i)

theorem quiet_valid [NeZero n] : (quiet n).Valid where
  mul _ ι ι' κ B := by
    show reveal (0 : Shares n κ) = B.apply (reveal 0) (reveal 0)
    have : ∀ ι : Type, reveal (0 : Shares n ι) = 0 := fun ι => funext fun i => reveal_zero i
    rw [this, this, this, Program.apply_zero_left]
  square _ ι i := by show reveal (0 : Shares n ι) i = reveal (0 : Shares n ι) i * reveal (0 : Shares n ι) i; rw [reveal_zero]; rfl
  bin _ ι i := by
    show revealX (fun (_ : Fin n) (_ : ι) => 0#64) i = revealX (fun (_ : Fin n) (_ : ι) => 0#64) i &&& revealX (fun (_ : Fin n) (_ : ι) => 0#64) i
    rw [revealX_zero]; rfl
  b2a _ ι i := ⟨false, reveal_zero i, revealX_zero i⟩
  wrap _ ι i := by
    show reveal (0 : Shares n ι) i = countWraps (List.ofFn fun _ => 0#64)
    obtain ⟨l, h1, h2⟩ := ofFn_alone (n := n) (fun _ => 0#64) fun _ _ => rfl
    rw [reveal_zero, h1, countWraps_alone _ _ h2]; rfl
  zeroA _ _ i := reveal_zero i
  zeroX _ _ i := revealX_zero i
  kbit _ _ _ _ _ := by show (0#64).toNat < _; exact Nat.two_pow_pos _

/-- Only party 0 has something. -/
def Alone [NeZero n] (x : Shares n ι) : Prop := ∀ p, p ≠ 0 → ∀ i, x p i = 0

/-- The tuples `quiet` with other zero-shares. -/
def hush (Z : ℕ → (ι : Type) → Shares n ι) : Tuples n := { quiet n with zeroA := Z }

/-- In runs in which all tuples are zero (and the zero-shares as far as they are used) nothing wraps, and the result, which is the same in all these runs, satisfies `Q`. -/
def Calm {α : Type} (m : Proto n α) (Q : α → Prop) : Prop :=
  ∀ c, ∃ v c', c ≤ c' ∧ Q v ∧ ∀ Z : ℕ → (ι : Type) → Shares n ι, (∀ k, c ≤ k → k < c' → Z k = fun _ => 0) → (m (hush Z) c).val = v ∧ (m (hush Z) c).ctr = c' ∧ (m (hush Z) c).good

theorem Calm.pure {α : Type} {a : α} {Q : α → Prop} (h : Q a) : Calm (n := n) (Pure.pure a) Q := fun c => ⟨a, c, le_rfl, h, fun _ _ => ⟨rfl, rfl, trivial⟩⟩

theorem Calm.bind {α β : Type} {m : Proto n α} {f : α → Proto n β} {P : α → Prop} {Q : β → Prop} (hm : Calm m P) (hf : ∀ a, P a → Calm (f a) Q) : Calm (m >>= f) Q := fun c => by
  obtain ⟨v, c1, h1, hv, hr⟩ := hm c
  obtain ⟨w, c2, h2, hw, hr2⟩ := hf v hv c1
  refine ⟨w, c2, h1.trans h2, hw, fun Z hZ => ?_⟩
  obtain ⟨e1, e2, e3⟩ := hr Z fun k hk hk' => hZ k hk (by omega)
  obtain ⟨e4, e5, e6⟩ := hr2 Z fun k hk hk' => hZ k (by omega) hk'
  have e : (m >>= f) (hush Z) c = ⟨(f (m (hush Z) c).val (hush Z) (m (hush Z) c).ctr).val, (f (m (hush Z) c).val (hush Z) (m (hush Z) c).ctr).ctr,
    (m (hush Z) c).good ∧ (f (m (hush Z) c).val (hush Z) (m (hush Z) c).ctr).good, fun k => if k < (m (hush Z) c).ctr then (m (hush Z) c).seen k else (f (m (hush Z) c).val (hush Z) (m (hush Z) c).ctr).seen k⟩ := rfl
  rw [e, e1, e2]
  exact ⟨e4, e5, e3, e6⟩

theorem Calm.mono {α : Type} {m : Proto n α} {P Q : α → Prop} (hm : Calm m P) (h : ∀ a, P a → Q a) : Calm m Q := fun c => by
  obtain ⟨v, c1, h1, hv, hr⟩ := hm c
  exact ⟨v, c1, h1, h v hv, hr⟩

section Primitives
variable [NeZero n]

theorem Alone.addPublic {x : Shares n ι} (h : Alone x) (y : Tensor ι) : Alone (addPublic x y) := fun p hp i => by
  unfold CrypTen.addPublic; rw [if_neg hp]; exact h p hp i

theorem Alone.subPublic {x : Shares n ι} (h : Alone x) (y : Tensor ι) : Alone (subPublic x y) := fun p hp i => by
  unfold CrypTen.subPublic; rw [if_neg hp]; exact h p hp i

theorem Alone.add {x y : Shares n ι} (h : Alone x) (g : Alone y) : Alone (addShares x y) := fun p hp i => by
  show x p i + y p i = 0; rw [h p hp, g p hp]; rfl

theorem Alone.sub {x y : Shares n ι} (h : Alone x) (g : Alone y) : Alone (subShares x y) := fun p hp i => by
  show x p i - y p i = 0; rw [h p hp, g p hp]; rfl

theorem Alone.neg {x : Shares n ι} (h : Alone x) : Alone (negShares x) := fun p hp i => by
  show -x p i = 0; rw [h p hp]; rfl

theorem Alone.mulInt {x : Shares n ι} (h : Alone x) (y : Tensor ι) : Alone (CrypTen.mulInt x y) := fun p hp i => by
  show x p i * y i = 0; rw [h p hp]; exact zero_mul _

theorem Alone.bilinear {x : Shares n ι} (h : Alone x) (B : BilinearOp ι ι' κ) (y : Tensor ι') : Alone (bilinearPublic B x y) := fun p hp i => by
  have : x p = 0 := funext (h p hp)
  show B.apply (x p) y i = 0
  rw [this, Program.apply_zero_left]; rfl

theorem alone_product (B : BilinearOp ι ι' κ) (x : Shares n ι) (y : Shares n ι') : Alone (beaverProduct B ⟨0, 0, 0⟩ x y) := by
  refine Alone.addPublic (fun p _ i => ?_) _
  show (0 : I64) + B.apply _ 0 i + B.apply 0 _ i = 0
  rw [Program.apply_zero_right, Program.apply_zero_left]; rfl

theorem alone_square (x : Shares n ι) : Alone (beaverSquare ⟨0, 0⟩ x) := by
  refine Alone.addPublic (fun p _ i => ?_) _
  show (0 : I64) + (0 * 2) * _ = 0
  rw [zero_mul, zero_mul]; rfl

theorem alone_b2a (x : Shares n ι) : Alone (b2aSingleBit ⟨0, fun _ _ => 0#64⟩ x) := by
  unfold b2aSingleBit
  split
  · rename_i h
    intro p hp
    exact absurd (Fin.ext (by have := p.isLt; have := (0 : Fin n).isLt; omega)) hp
  · refine Alone.addPublic (fun p _ i => ?_) _
    show (0 : I64) * _ = 0
    exact zero_mul _

theorem tdiv_zero (y : I64) : tdivI64 0 y = 0 := by
  unfold tdivI64
  rw [show (0 : I64).toInt = 0 from rfl, Int.zero_tdiv]; rfl

theorem alone_div {x : Shares n ι} (h : Alone x) (y : ι → ℤ) : Alone (divInt ⟨0, 0⟩ x y) := by
  have h1 : Alone (truncLocal x y) := fun p hp i => by show tdivI64 (x p i) _ = 0; rw [h p hp]; exact tdiv_zero _
  unfold divInt
  split
  · refine h1.sub (Alone.mulInt (Alone.mulInt (fun p hp i => ?_) _) _)
    show (if p = 0 then _ else _) = (0 : I64)
    rw [if_neg hp]
    show countWraps [x p i, 0#64] - 0 = 0
    rw [countWraps_alone _ _ (by simp)]; rfl
  · exact h1

theorem good_div {x : Shares n ι} (h : Alone x) (i : ι) : DivGood (⟨0, 0⟩ : WrapPair n ι) x i := by
  unfold DivGood
  split
  · refine ⟨⟨fun p => minCollisions_alone _ _ (by intro x hx; rw [List.mem_singleton] at hx; exact hx), ?_, ?_⟩, ?_⟩
    · obtain ⟨l, h1, h2⟩ := ofFn_alone (n := n) (fun _ => 0#64) fun _ _ => rfl
      show minCollisions (List.ofFn fun _ => 0#64) = 0
      rw [h1]; exact minCollisions_alone _ _ h2
    · obtain ⟨l, h1, h2⟩ := ofFn_alone (n := n) (fun p => x p i + (0 : I64)) fun p hp => by rw [h p hp]; rfl
      show minCollisions (List.ofFn fun p => x p i + (0 : I64)) = 0
      rw [h1]; exact minCollisions_alone _ _ h2
    · show (reveal x i).toInt + (reveal (0 : Shares n ι) i).toInt = (reveal x i + reveal (0 : Shares n ι) i).toInt
      rw [reveal_zero, add_zero, show (0 : I64).toInt = 0 from rfl, add_zero]
  · have e1 : ∑ p, (x p i).toInt = (x 0 i).toInt := Finset.sum_eq_single 0 (fun p _ hp => by rw [h p hp]; rfl) (fun h => absurd (Finset.mem_univ _) h)
    have e2 : reveal x i = x 0 i := by rw [reveal_apply]; exact Finset.sum_eq_single 0 (fun p _ hp => h p hp i) (fun h => absurd (Finset.mem_univ _) h)
    rw [e1, e2]

theorem calm_div {x : Shares n ι} (h : Alone x) (y : ι → ℤ) : Calm (Proto.divInt x y) Alone := fun c => ⟨_, c + 1, by omega, alone_div h y, fun _ _ => ⟨rfl, rfl, good_div h⟩⟩

theorem calm_product (B : BilinearOp ι ι' κ) (x : Shares n ι) (y : Shares n ι') : Calm (Proto.mul B x y) Alone := fun c => ⟨_, c + 1, by omega, alone_product B x y, fun _ _ => ⟨rfl, rfl, trivial⟩⟩

theorem calm_squareS (x : Shares n ι) : Calm (Proto.square x) Alone := fun c => ⟨_, c + 1, by omega, alone_square x, fun _ _ => ⟨rfl, rfl, trivial⟩⟩

theorem calm_b2aBit (x : Shares n ι) : Calm (Proto.b2aBit x) Alone := fun c => ⟨_, c + 1, by omega, alone_b2a x, fun _ _ => ⟨rfl, rfl, trivial⟩⟩

theorem calm_b2a (bits a b : ℕ) (x : Shares n ι) : Calm (b2a bits a b x) Alone := by
  refine Calm.bind (P := Alone) ?_ fun s hs => Calm.pure (hs.mulInt _)
  unfold b2aBits
  split
  · exact calm_b2aBit _
  · refine Calm.bind (calm_b2aBit _) fun s hs => Calm.pure fun p hp i => ?_
    exact Finset.sum_eq_zero fun k _ => hs.mulInt _ p hp _

theorem calm_and (x y : Shares n ι) : Calm (Proto.and x y) fun _ => True := fun c => ⟨(Proto.and x y (quiet n) c).val, c + 1, by omega, trivial, fun _ _ => ⟨rfl, rfl, trivial⟩⟩

theorem calm_encryptX (q : Fin n) (x : Tensor ι) : Calm (Proto.encryptX q x) fun _ => True := fun c => ⟨(Proto.encryptX q x (quiet n) c).val, c + 1, by omega, trivial, fun _ _ => ⟨rfl, rfl, trivial⟩⟩

theorem calm_kbit (b : ℕ) (ι : Type) : Calm (Proto.kbit (n := n) b ι) fun _ => True := fun c => ⟨_, c + 1, by omega, trivial, fun _ _ => ⟨rfl, rfl, trivial⟩⟩

theorem calm_spkLoop (m i : ℕ) (SP : Shares n (Bool × ι)) : Calm (spkLoop m i SP) fun _ => True := by
  induction m generalizing i SP with
  | zero => exact Calm.pure trivial
  | succ m ih => exact Calm.bind (P := fun _ => True) (Calm.bind (calm_and _ _) fun _ _ => Calm.pure trivial) fun _ _ => ih _ _

theorem calm_addX (x y : Shares n ι) : Calm (addX x y) fun _ => True :=
  Calm.bind (calm_and _ _) fun _ _ => Calm.bind (P := fun _ => True) (Calm.bind (calm_spkLoop _ _ _) fun _ _ => Calm.pure trivial) fun _ _ => Calm.pure trivial

theorem calm_sumXLoop (k : ℕ) (l : List (Shares n ι)) : Calm (sumXLoop k l) fun _ => True := by
  induction k generalizing l with
  | zero => exact Calm.pure trivial
  | succ k ih =>
    unfold sumXLoop
    split_ifs
    · exact Calm.bind (calm_addX _ _) fun _ _ => ih _
    · exact Calm.bind (calm_addX _ _) fun _ _ => ih _
    · exact Calm.pure trivial

theorem calm_shareRows (x : Shares n ι) (l : List (Fin n)) : Calm (shareRows x l) fun _ => True := by
  induction l with
  | nil => exact Calm.pure trivial
  | cons i l ih => exact Calm.bind (calm_encryptX _ _) fun _ _ => Calm.bind ih fun _ _ => Calm.pure trivial

theorem calm_a2b (x : Shares n ι) : Calm (a2b x) fun _ => True :=
  Calm.bind (calm_shareRows _ _) fun _ _ => Calm.bind (calm_sumXLoop _ _) fun _ _ => Calm.pure trivial

end Primitives

/-! ## Encrypted tensors -/

section Tensors
variable [NeZero n]

/-- Only party 0 has a share that is not zero. -/
def AST.Alone (x : AST n ι) : Prop := CrypTen.Alone x.share

theorem calm_encodeTo (k : ℕ) {x : AST n ι} (h : x.Alone) : Calm (x.encodeTo k) AST.Alone := by
  unfold AST.encodeTo
  split_ifs
  · exact Calm.pure h
  · exact Calm.pure (Alone.mulInt h _)
  · exact Calm.bind (calm_div h _) fun s hs => Calm.pure hs

theorem calm_add {x y : AST n ι} (h : x.Alone) (g : y.Alone) : Calm (x.add y) AST.Alone := by
  unfold AST.add
  split_ifs
  · exact Calm.bind (calm_encodeTo _ g) fun s hs => Calm.pure (Alone.add h hs)
  · exact Calm.bind (calm_encodeTo _ h) fun s hs => Calm.pure (Alone.add hs g)
  · exact Calm.pure (Alone.add h g)

theorem calm_sub {x y : AST n ι} (h : x.Alone) (g : y.Alone) : Calm (x.sub y) AST.Alone := by
  unfold AST.sub
  split_ifs
  · exact Calm.bind (calm_encodeTo _ g) fun s hs => Calm.pure (Alone.sub h hs)
  · exact Calm.bind (calm_encodeTo _ h) fun s hs => Calm.pure (Alone.sub hs g)
  · exact Calm.pure (Alone.sub h g)

theorem AST.Alone.addPub {x : AST n ι} (h : x.Alone) (y : ι → ℚ) : (x.addPub y).Alone := Alone.addPublic h _
theorem AST.Alone.subPub {x : AST n ι} (h : x.Alone) (y : ι → ℚ) : (x.subPub y).Alone := Alone.subPublic h _
theorem AST.Alone.neg {x : AST n ι} (h : x.Alone) : x.neg.Alone := CrypTen.Alone.neg h
theorem AST.Alone.mulInt {x : AST n ι} (h : x.Alone) (z : ℤ) : (x.mulInt z).Alone := CrypTen.Alone.mulInt h _
theorem AST.Alone.oneMinus {x : AST n ι} (h : x.Alone) : x.oneMinus.Alone := h.neg.addPub _
theorem AST.Alone.reindex {x : AST n ι} (h : x.Alone) (g : κ → ι) : (x.reindex g).Alone := fun p hp i => h p hp (g i)
theorem AST.Alone.sumFirst [Fintype κ] {x : AST n (κ × ι)} (h : x.Alone) : x.sumFirst.Alone := fun p hp _ => Finset.sum_eq_zero fun _ _ => h p hp _

theorem calm_divInt {x : AST n ι} (h : x.Alone) (y : ι → ℤ) : Calm (x.divInt y) AST.Alone := Calm.bind (calm_div h _) fun _ hs => Calm.pure hs

theorem calm_mul (B : BilinearOp ι ι' κ) (x : AST n ι) (y : AST n ι') : Calm (AST.mul B x y) AST.Alone := by
  refine Calm.bind (calm_product B _ _) fun s hs => ?_
  split_ifs
  · exact Calm.bind (calm_div hs _) fun s hs => Calm.pure hs
  · exact Calm.pure hs
  · exact Calm.pure hs

theorem calm_mulPub (B : BilinearOp ι ι' κ) {x : AST n ι} (h : x.Alone) (y : ι' → ℚ) : Calm (AST.mulPub B x y) AST.Alone := by
  unfold AST.mulPub
  dsimp only
  split_ifs
  · exact Calm.bind (calm_div (Alone.bilinear h B _) _) fun s hs => Calm.pure hs
  · exact Calm.pure (Alone.bilinear h B _)

theorem calm_square (x : AST n ι) : Calm x.square AST.Alone :=
  Calm.bind (calm_squareS _) fun _ hs => Calm.bind (calm_div hs _) fun _ hs => Calm.pure hs

theorem calm_ltz (D : ℕ) (x : AST n ι) : Calm (x.ltz D) AST.Alone :=
  Calm.bind (calm_a2b x.share) fun _ _ => Calm.bind (calm_b2a _ _ _ _) fun _ hs => Calm.pure hs

theorem calm_encryptA (x : Tensor ι) : Calm (Proto.encryptA (0 : Fin n) x) Alone := fun c => by
  refine ⟨fun p => if p = 0 then x else 0, c + 1, by omega, fun p hp i => ?_, fun Z hZ => ⟨?_, rfl, trivial⟩⟩
  · show (if p = 0 then x else 0) i = 0
    rw [if_neg hp]; rfl
  · show (fun p => if p = 0 then Z c ι p + x else Z c ι p) = _
    rw [hZ c le_rfl (by omega)]
    funext p
    show (if p = 0 then (0 : Tensor ι) + x else 0) = _
    rw [zero_add]

theorem calm_lt (D : ℕ) {x : AST n ι} (h : x.Alone) : (y : Operand n ι) → (∀ z, y = .enc z → z.Alone) → Calm (x.lt D y) AST.Alone
  | .enc z, hy => Calm.bind (calm_sub h (hy z rfl)) fun _ _ => calm_ltz D _
  | .pub z, _ => Calm.bind (P := fun _ => True) (Calm.pure trivial) fun _ _ => calm_ltz D _

theorem calm_gt (D : ℕ) {x : AST n ι} (h : x.Alone) : (y : Operand n ι) → (∀ z, y = .enc z → z.Alone) → Calm (x.gt D y) AST.Alone
  | .enc z, hy => Calm.bind (calm_add h.neg (hy z rfl)) fun _ _ => calm_ltz D _
  | .pub z, _ => Calm.bind (P := fun _ => True) (Calm.pure trivial) fun _ _ => calm_ltz D _

theorem calm_ge (D : ℕ) {x : AST n ι} (h : x.Alone) (y : Operand n ι) (hy : ∀ z, y = .enc z → z.Alone) : Calm (x.ge D y) AST.Alone :=
  Calm.bind (calm_lt D h y hy) fun _ hs => Calm.pure hs.oneMinus

theorem calm_relu (D : ℕ) (x : AST n ι) : Calm (x.relu D) AST.Alone :=
  Calm.bind (P := fun _ => True) (Calm.bind (P := AST.Alone) (Calm.bind (P := fun _ => True) (Calm.pure trivial) fun _ _ => calm_ltz D _) fun _ _ => Calm.pure trivial) fun _ _ => calm_mul _ _ _

/-! ## Maximum -/

/-- All rows are held by party 0. -/
def Rows (l : List (Shares n ι)) : Prop := ∀ x ∈ l, CrypTen.Alone x

theorem Rows.drop {l : List (Shares n ι)} (h : Rows l) (k : ℕ) : Rows (l.drop k) := fun x hx => h x (List.mem_of_mem_drop hx)

theorem Rows.append {l m : List (Shares n ι)} (h : Rows l) (g : Rows m) : Rows (l ++ m) := fun x hx => (List.mem_append.1 hx).elim (h x) (g x)

theorem Rows.getD {l : List (Shares n ι)} (h : Rows l) (k : ℕ) : CrypTen.Alone (l.getD k fun _ _ => 0#64) := by
  rw [List.getD_eq_getElem?_getD]
  cases e : l[k]? with
  | none => intro p _ i; rfl
  | some x => exact h x (List.mem_of_getElem? e)

theorem Rows.take {l : List (Shares n ι)} (h : Rows l) (k off : ℕ) : CrypTen.Alone (takeRows k off l) := fun p hp i => h.getD (off + i.1) p hp i.2

theorem rows_unstack {m : ℕ} {x : Shares n (Fin m × ι)} (h : CrypTen.Alone x) : Rows (unstackRows x) := fun y hy => by
  obtain ⟨k, rfl⟩ := List.mem_ofFn.1 hy
  exact fun p hp i => h p hp (k, i)

theorem Rows.head {l : List (Shares n ι)} (h : Rows l) : CrypTen.Alone (l.headD fun _ _ => 0#64) := by
  cases l with
  | nil => intro p _ i; rfl
  | cons a l => exact h a (by simp)

theorem calm_prodLoop (k : ℕ) (l : List (Shares n ι)) (s : ℕ) (h : Rows l) : Calm (prodLoop k l s) fun r => Rows r.1 := by
  induction k generalizing l s with
  | zero => exact Calm.pure h
  | succ k ih =>
    unfold prodLoop
    split_ifs
    · exact Calm.bind (calm_mul _ _ _) fun z hz => ih _ _ ((rows_unstack hz).append (h.drop _))
    · exact Calm.pure h

theorem calm_prodFirst {m : ℕ} {x : AST n (Fin m × ι)} (h : x.Alone) : Calm x.prodFirst AST.Alone :=
  Calm.bind (calm_prodLoop _ _ _ (rows_unstack h)) fun _ hr => Calm.pure (Rows.head hr)

theorem calm_rand (p : ℕ) (ι : Type) : Calm (mpcRand (n := n) p ι) AST.Alone :=
  Calm.bind (calm_kbit _ _) fun _ _ => Calm.bind (calm_b2a _ _ _ _) fun _ hs => Calm.pure hs

theorem calm_weightedIndex (p : ℕ) {m : ℕ} {x : AST n (Fin m × ι)} (h : x.Alone) : Calm (x.weightedIndex p) AST.Alone := by
  refine Calm.bind (calm_rand p ι) fun u _ => ?_
  refine Calm.bind (calm_mul _ _ _) fun r hr => ?_
  refine Calm.bind (calm_gt _ (fun q hq jk => ?_) _ fun z hz => ?_) fun g hg => ?_
  · show ∑ i : Fin m, (if i ≤ jk.1 then x.share q (i, jk.2) else 0) = 0
    refine Finset.sum_eq_zero fun i _ => ?_
    split_ifs
    · exact h q hq _
    · rfl
  · cases hz; exact hr.reindex _
  · refine calm_sub hg fun q hq jk => ?_
    show (if _ : jk.1.val = 0 then 0 else _) = _
    split_ifs
    · rfl
    · exact hg q hq _

theorem calm_argmaxPairwise (p : ℕ) {m : ℕ} {x : AST n (Fin m × ι)} (h : x.Alone) : Calm (x.argmaxPairwise p) AST.Alone := by
  refine Calm.bind (calm_ge _ (h.reindex _) _ fun z hz => ?_) fun c hc => ?_
  · cases hz; exact h.reindex _
  · by_cases hm : (if m > 1 then m else 2) - 1 < 64 * 2
    · rw [if_pos hm]; exact calm_prodFirst hc
    · rw [if_neg hm]; exact calm_ge _ (AST.Alone.sumFirst hc) _ fun z hz => nomatch hz

theorem calm_maxPairwise (p : ℕ) {m : ℕ} {x : AST n (Fin m × ι)} (h : x.Alone) : Calm (x.maxPairwise p) AST.Alone :=
  Calm.bind (P := AST.Alone) (Calm.bind (calm_argmaxPairwise p h) fun _ ha => calm_weightedIndex p ha) fun _ _ => Calm.bind (calm_mul _ _ _) fun _ hy => Calm.pure hy.sumFirst

theorem calm_where (c x y : AST n ι) : Calm (cryptenWhere c x y) AST.Alone :=
  Calm.bind (calm_mul _ _ _) fun _ h1 => Calm.bind (calm_mul _ _ _) fun _ h2 => calm_add h1 h2

theorem calm_halving (p s k : ℕ) (l : List (Shares n ι)) (h : Rows l) : Calm (halvingSteps p s k l) Rows := by
  induction k generalizing l with
  | zero => exact Calm.pure h
  | succ k ih =>
    refine Calm.bind (calm_ge (x := ⟨takeRows (l.length / 2) 0 l, s⟩) _ (h.take _ _) _ fun z hz => ?_) fun c hc => Calm.bind (calm_where _ _ _) fun z hz => ih _ ((rows_unstack hz).append (h.drop _))
    cases hz; exact h.take _ _

theorem calm_stack (p s : ℕ) {l : List (Shares n ι)} (h : Rows l) : Calm ((stackAST l s).maxPairwise p) AST.Alone := calm_maxPairwise p (h.take _ _)

theorem calm_doubleLog (p k : ℕ) {ι : Type} (l : List (Shares n ι)) (s : ℕ) (h : Rows l) : Calm (maxDoubleLog p k ι l s) AST.Alone := by
  induction k generalizing ι l s with
  | zero => exact Calm.pure (Rows.head h)
  | succ k ih =>
    unfold maxDoubleLog
    dsimp only
    split_ifs
    · exact Calm.pure (Rows.head h)
    · refine Calm.bind (ih _ _ fun y hy => ?_) fun r hr => calm_stack _ _ ((rows_unstack hr).append (h.drop _))
      obtain ⟨a, rfl⟩ := List.mem_ofFn.1 hy
      exact fun q hq bk => h.getD _ q hq _

theorem calm_max (p : ℕ) (method : MaxMethod) {m : ℕ} {x : AST n (Fin m × ι)} (h : x.Alone) : Calm (x.maxFirst p method) AST.Alone := by
  have hr := rows_unstack h
  cases method with
  | pairwise => exact calm_maxPairwise p h
  | logReduction k => exact Calm.bind (calm_halving p _ k _ hr) fun _ hl => calm_stack _ _ hl
  | doubleLog => exact calm_doubleLog p _ _ _ hr
  | cascade k =>
    show Calm (maxCascade _ _ _ _) _
    unfold maxCascade
    split_ifs
    · exact calm_stack _ _ hr
    · exact Calm.bind (calm_halving p _ k _ hr) fun _ hl => calm_doubleLog p _ _ _ hl

end Tensors

/-! ## The approximated functions -/

section Functions
variable [NeZero n] (p : ℕ) (method : MaxMethod)
local notation "O" => mpcOps n p method

theorem calm_iter {α : Type} {f : α → Proto n α} {P : α → Prop} (hf : ∀ a, P a → Calm (f a) P) (k : ℕ) (a : α) (h : P a) : Calm (iterM f k a) P := by
  induction k generalizing a with
  | zero => exact Calm.pure h
  | succ k ih => exact Calm.bind (hf a h) fun b hb => ih b hb

theorem AST.Alone.rsub {x : AST n ι} (h : x.Alone) (c : ℚ) : ((O).rsubNum c x).Alone := h.neg.addPub _

theorem calm_exp (k : ℕ) {x : AST n ι} (h : x.Alone) : Calm ((O).exp k x) AST.Alone :=
  Calm.bind (calm_divInt h _) fun _ hy => calm_iter (fun a _ => calm_square a) k _ (hy.addPub _)

theorem calm_polyGrow (len k m : ℕ) (t : AST n (Fin (m + 1) × ι)) (h : t.Alone) : Calm ((O).polyGrow len k m t) fun r => r.2.Alone := by
  induction k generalizing m with
  | zero => exact Calm.pure h
  | succ k ih =>
    unfold Ops.polyGrow
    split_ifs
    · refine Calm.bind (calm_mul _ _ _) fun new hn => ih _ _ fun q hq i => ?_
      have key : ∀ j : Fin (m + 1 + (m + 1)), Fin.addCases (motive := fun _ => I64) (fun j : Fin (m + 1) => t.share q (j, i.2)) (fun j : Fin (m + 1) => new.share q (j, i.2)) j = 0 := fun j => by
        refine Fin.addCases (fun j => ?_) (fun j => ?_) j
        · rw [Fin.addCases_left]; exact h q hq _
        · rw [Fin.addCases_right]; exact hn q hq _
      exact key i.1
    · exact Calm.pure h

theorem calm_polynomial {x : AST n ι} (h : x.Alone) (cs : List ℚ) : Calm ((O).polynomial x cs) AST.Alone := by
  unfold Ops.polynomial
  split_ifs
  · exact calm_mulPub _ h _
  · refine Calm.bind (P := AST.Alone) (Calm.bind (calm_square x) fun sq hsq => Calm.bind (calm_polyGrow p method _ _ _ _ fun q hq i => ?_) fun r hr => Calm.pure fun q hq i => hr q hq _)
      fun t ht => Calm.bind (calm_mulPub _ ht _) fun y hy => Calm.pure hy.sumFirst
    obtain ⟨j, i⟩ := i
    show (if j = 0 then x else sq).share q i = 0
    split_ifs
    · exact h q hq i
    · exact hsq q hq i

theorem calm_log (c : FunCfg) {x : AST n ι} (h : x.Alone) : Calm ((O).log c x) AST.Alone := by
  refine Calm.bind (P := AST.Alone) ?_ fun y hy => calm_iter (fun y hy => ?_) _ _ hy
  · exact Calm.bind (calm_divInt h _) fun _ h1 => Calm.bind (calm_exp p method _ (h.mulInt 2 |>.addPub _).neg) fun _ h2 =>
      Calm.bind (calm_sub h1 (h2.mulInt 20)) fun _ h3 => Calm.pure (h3.addPub _)
  · exact Calm.bind (calm_exp p method _ hy.neg) fun _ _ => Calm.bind (calm_mul _ _ _) fun _ h2 => Calm.bind (calm_polynomial p method (h2.rsub p method 1) _) fun _ h3 => calm_sub hy h3

theorem calm_recipStep (x : AST n ι) {r : AST n ι} (h : r.Alone) : Calm ((O).recipStep x r) AST.Alone :=
  Calm.bind (calm_square r) fun _ _ => Calm.bind (calm_mul _ _ _) fun _ h2 => Calm.bind (calm_sub h h2) fun _ h3 => calm_add h h3

theorem calm_const (ι : Type) (c : ℚ) : Calm ((O).const ι c) AST.Alone := Calm.bind (calm_encryptA _) fun _ hs => Calm.pure hs

theorem calm_recipPos (c : FunCfg) {x : AST n ι} (h : x.Alone) : Calm ((O).recipPos c x) AST.Alone := by
  unfold Ops.recipPos
  split
  · split
    · exact Calm.bind (P := AST.Alone) (Calm.bind (calm_exp p method _ ((h.mulInt 2).rsub p method 1)) fun _ he => Calm.pure ((he.mulInt 3).addPub _))
        fun _ hr => calm_iter (fun _ hy => calm_recipStep p method x hy) _ _ hr
    · unfold Ops.recipFromNum
      split
      · exact calm_const p method _ _
      · exact Calm.bind (calm_mulPub _ h _) fun _ ht => calm_iter (fun _ hy => calm_recipStep p method x hy) _ _ (ht.rsub p method _)
  · exact Calm.bind (calm_log p method c h) fun _ hl => calm_exp p method _ hl.neg

theorem calm_sign (x : AST n ι) : Calm ((O).sign x) AST.Alone := Calm.bind (calm_ltz _ x) fun _ hl => Calm.pure ((hl.mulInt 2).rsub p method 1)

theorem calm_reciprocal (c : FunCfg) {x : AST n ι} (h : x.Alone) : Calm ((O).reciprocal c x) AST.Alone := by
  unfold Ops.reciprocal
  split_ifs
  · exact calm_recipPos p method c h
  · exact Calm.bind (calm_sign p method x) fun _ _ => Calm.bind (calm_mul _ _ _) fun _ hx => Calm.bind (calm_recipPos p method c hx) fun _ _ => calm_mul _ _ _

theorem calm_sigmoidReciprocal (c : FunCfg) (x : AST n ι) : Calm ((O).sigmoidReciprocal c x) AST.Alone :=
  Calm.bind (calm_ltz _ x) fun _ _ => Calm.bind (calm_mul _ _ _) fun _ h1 => Calm.bind (calm_exp p method _ h1.neg) fun _ h2 =>
    Calm.bind (calm_reciprocal p method _ (h2.addPub _)) fun _ _ => Calm.bind (calm_mul _ _ _) fun _ h4 => Calm.bind (calm_mul _ _ _) fun _ h5 => calm_add h5 h4

theorem calm_invSqrt (c : FunCfg) {x : AST n ι} (h : x.Alone) : Calm ((O).invSqrt c x) AST.Alone := by
  refine Calm.bind (P := AST.Alone) ?_ fun y hy => calm_iter (fun y _ => ?_) _ _ hy
  · exact Calm.bind (calm_divInt h _) fun _ h1 => Calm.bind (calm_exp p method _ (h1.addPub _).neg) fun _ h2 => Calm.bind (calm_mulPub _ h2 _) fun _ h3 =>
      Calm.bind (calm_divInt h _) fun _ h4 => calm_sub (h3.addPub _) h4
  · exact Calm.bind (calm_square y) fun _ _ => Calm.bind (calm_mul _ _ _) fun _ _ => Calm.bind (calm_mul _ _ _) fun _ h3 => calm_divInt h3 _

theorem calm_eix (k : ℕ) {x : AST n ι} (h : x.Alone) : Calm ((O).eix k x) fun z => z.1.Alone ∧ z.2.Alone := by
  refine Calm.bind (calm_divInt h _) fun im him => Calm.bind (calm_square im) fun sq hsq => calm_iter (fun z _ => ?_) _ _ ⟨hsq.rsub p method 1, him.mulInt 2⟩
  exact Calm.bind (calm_square _) fun _ h1 => Calm.bind (calm_square _) fun _ h2 => Calm.bind (calm_mul _ _ _) fun _ h3 => Calm.bind (calm_sub h1 h2) fun _ h4 => Calm.pure ⟨h4, h3.mulInt 2⟩

theorem calm_softmax (c : FunCfg) {m : ℕ} {x : AST n (Fin m × ι)} (h : x.Alone) : Calm ((O).softmax c x) AST.Alone := by
  unfold Ops.softmax
  split_ifs
  · exact calm_const p method _ _
  · exact Calm.bind (calm_max p method h) fun _ h1 => Calm.bind (calm_sub h (h1.reindex _)) fun _ h2 => Calm.bind (calm_exp p method _ h2) fun _ h3 =>
      Calm.bind (calm_reciprocal p method _ (AST.Alone.sumFirst h3)) fun _ _ => calm_mul _ _ _

theorem calm_logSoftmax (c : FunCfg) {m : ℕ} {x : AST n (Fin m × ι)} (h : x.Alone) : Calm ((O).logSoftmax c x) AST.Alone := by
  unfold Ops.logSoftmax
  split_ifs
  · exact calm_const p method _ _
  · exact Calm.bind (calm_max p method h) fun _ h1 => Calm.bind (calm_sub h (h1.reindex _)) fun _ h2 => Calm.bind (calm_exp p method _ h2) fun _ h3 =>
      Calm.bind (calm_log p method _ (AST.Alone.sumFirst h3)) fun _ h4 => calm_sub h2 (h4.reindex _)

end Functions

namespace Program
variable [NeZero n] {sh : ℕ → Type}

/-- Every line except an input is calm on registers held by party 0. -/
theorem calm_op (k : ℕ) {R : Regs n sh} (h : ∀ r, (R r).Alone) {d : ℕ} (op : Op n sh d) (ho : ∀ src x, op ≠ .input src x) : Calm (op.run k R) AST.Alone := by
  cases op with
  | input src x => exact absurd rfl (ho src x)
  | add a b f g => exact calm_add ((h a).reindex f) ((h b).reindex g)
  | sub a b f g => exact calm_sub ((h a).reindex f) ((h b).reindex g)
  | neg a f => exact Calm.pure ((h a).reindex f).neg
  | addPub a f y => exact Calm.pure (((h a).reindex f).addPub y)
  | mulInt a f z => exact Calm.pure (((h a).reindex f).mulInt z)
  | mul a b B => exact calm_mul B _ _
  | mulPub a m B y => exact calm_mulPub B (h a) y
  | square a f => exact calm_square _
  | divInt a f z => exact calm_divInt ((h a).reindex f) _
  | reindex a f => exact Calm.pure ((h a).reindex f)
  | sum a m f => exact Calm.pure (AST.Alone.sumFirst ((h a).reindex f))
  | relu a f => exact calm_relu _ _
  | max a m f method => exact calm_max k method ((h a).reindex f)

/-- Zero-shares that hand a tensor over from party `src` to party 0. -/
noncomputable def handOver (src : Fin n) (x : Tensor ι) (κ : Type) : Shares n κ := by
  classical exact if h : κ = ι then fun p i => (if p = 0 then x (h ▸ i) else 0) - if p = src then x (h ▸ i) else 0 else 0

theorem handOver_zero (src : Fin n) (x : Tensor ι) (κ : Type) (i : κ) : reveal (handOver src x κ) i = 0 := by
  classical
  unfold handOver
  split_ifs with h
  · subst h
    rw [reveal_apply]
    show ∑ p, ((if p = 0 then x i else 0) - if p = src then x i else 0) = 0
    rw [Finset.sum_sub_distrib, Finset.sum_ite_eq', Finset.sum_ite_eq', if_pos (Finset.mem_univ _), if_pos (Finset.mem_univ _), sub_self]
  · exact reveal_zero i

theorem handOver_self (src : Fin n) (x : Tensor ι) (p : Fin n) (i : ι) : handOver src x ι p i = (if p = 0 then x i else 0) - if p = src then x i else 0 := by
  classical
  unfold handOver
  rw [dif_pos rfl]

/-- An input whose zero-shares hand it over ends up with party 0. -/
theorem input_alone (src : Fin n) (x : Tensor ι) (Z : ℕ → (ι : Type) → Shares n ι) (c : ℕ) (hZ : Z c = handOver src x) : Alone (Proto.encryptA src x (hush Z) c).val := fun p hp i => by
  show (if p = src then Z c ι p + x else Z c ι p) i = 0
  rw [hZ]
  by_cases hs : p = src
  · rw [if_pos hs]
    show handOver src x ι p i + x i = 0
    rw [handOver_self, if_neg hp, if_pos hs, zero_sub, neg_add_cancel]
  · rw [if_neg hs, handOver_self, if_neg hp, if_neg hs, sub_self]

theorem set_alone {R : Regs n sh} (h : ∀ r, (R r).Alone) (d : ℕ) {x : AST n (sh d)} (hx : x.Alone) (r : ℕ) : (set (α := AST n) R d x r).Alone := by
  unfold set
  split_ifs with e
  · subst e; exact hx
  · exact h r

/-- From counter `c` on some zero-shares make `m` a run without wrap-around, whatever the zero-shares before. -/
def Possible {α : Type} (m : Proto n α) (c : ℕ) : Prop :=
  ∃ Z : ℕ → (ι : Type) → Shares n ι, (∀ k ι i, reveal (Z k ι) i = 0) ∧ ∀ Z' : ℕ → (ι : Type) → Shares n ι, (∀ k, c ≤ k → Z' k = Z k) → (m (hush Z') c).good

theorem Possible.of_calm {α β : Type} {m : Proto n α} {Q : α → Prop} (hm : Calm m Q) {f : α → Proto n β} (hf : ∀ a, Q a → ∀ c, Possible (f a) c) (c : ℕ) : Possible (m >>= f) c := by
  obtain ⟨v, c', hc, hv, hr⟩ := hm c
  obtain ⟨Z, h1, h3⟩ := hf v hv c'
  refine ⟨fun k => if k < c' then fun _ => 0 else Z k, fun k ι i => ?_, fun Z' hZ' => ?_⟩
  · dsimp only; split_ifs
    · exact reveal_zero i
    · exact h1 k ι i
  · obtain ⟨e1, e2, e3⟩ := hr Z' fun k hk hk' => (hZ' k hk).trans (if_pos hk')
    refine ⟨e3, ?_⟩
    show (f (m (hush Z') c).val (hush Z') (m (hush Z') c).ctr).good
    rw [e1, e2]
    exact h3 Z' fun k hk => (hZ' k (by omega)).trans (if_neg (by omega))

theorem Possible.input {β : Type} (src : Fin n) (x : Tensor ι) {f : Shares n ι → Proto n β} (hf : ∀ a, Alone a → ∀ c, Possible (f a) c) (c : ℕ) : Possible (Proto.encryptA src x >>= f) c := by
  have ha : Alone (Proto.encryptA src x (hush fun _ => handOver src x) c).val := input_alone src x _ c rfl
  obtain ⟨Z, h1, h3⟩ := hf _ ha (c + 1)
  refine ⟨fun k => if k = c then handOver src x else Z k, fun k ι i => ?_, fun Z' hZ' => ?_⟩
  · dsimp only; split_ifs
    · exact handOver_zero _ _ _ _
    · exact h1 k ι i
  · have e : (Proto.encryptA src x (hush Z') c).val = (Proto.encryptA src x (hush fun _ => handOver src x) c).val := by
      show (fun p => if p = src then Z' c ι p + x else Z' c ι p) = fun p => if p = src then handOver src x ι p + x else handOver src x ι p
      rw [(hZ' c le_rfl).trans (if_pos rfl)]
    refine ⟨trivial, ?_⟩
    show (f (Proto.encryptA src x (hush Z') c).val (hush Z') (c + 1)).good
    rw [e]
    exact h3 Z' fun k hk => (hZ' k (by omega)).trans (if_neg (by omega))

theorem hush_valid {Z : ℕ → (ι : Type) → Shares n ι} (h : ∀ k ι i, reveal (Z k ι) i = 0) : (hush Z).Valid := { quiet_valid with zeroA := h }

theorem Possible.run {α : Type} {m : Proto n α} {c : ℕ} (h : Possible m c) : ∃ T : Tuples n, T.Valid ∧ (m T c).good := by
  obtain ⟨Z, h1, h2⟩ := h
  exact ⟨hush Z, hush_valid h1, h2 Z fun _ _ => rfl⟩

theorem possible_op (k : ℕ) {R : Regs n sh} (h : ∀ r, (R r).Alone) {d : ℕ} (op : Op n sh d) {β : Type} {f : AST n (sh d) → Proto n β} (hf : ∀ a, a.Alone → ∀ c, Possible (f a) c) (c : ℕ) :
    Possible (op.run k R >>= f) c := by
  by_cases ho : ∃ src x, op = .input src x
  · obtain ⟨src, x, rfl⟩ := ho
    have := Possible.input src (encodePublic (2 ^ k) x) (f := fun s => f ⟨s, 2 ^ k⟩) (fun a ha => hf ⟨a, 2 ^ k⟩ ha) c
    obtain ⟨Z, h1, h2⟩ := this
    refine ⟨Z, h1, fun Z' hZ' => ?_⟩
    have := h2 Z' hZ'
    exact ⟨⟨trivial, trivial⟩, this.2⟩
  · exact Possible.of_calm (calm_op k h op fun src x e => ho ⟨src, x, e⟩) hf c

theorem possible_prog (k : ℕ) (prog : Prog n sh) (R : Regs n sh) (h : ∀ r, (R r).Alone) (c : ℕ) : Possible (run k prog R) c := by
  induction prog generalizing R c with
  | nil => exact ⟨fun _ _ => 0, fun _ _ i => reveal_zero i, fun _ _ => trivial⟩
  | cons l rest ih =>
    obtain ⟨d, op⟩ := l
    exact possible_op k h op (fun a ha c => ih _ (set_alone h d ha) c) c

end Program

namespace Network
open Program

theorem calm_fn (method : MaxMethod) (coeffs : ℕ → ℚ) {x : AST 2 ι} (h : x.Alone) (f : Fn) : Calm (f.run method coeffs x) AST.Alone := by
  cases f with
  | exp => exact calm_exp 16 method _ h
  | log => exact calm_log 16 method _ h
  | reciprocal => exact calm_reciprocal 16 method _ h
  | sqrt => exact Calm.bind (calm_invSqrt 16 method _ h) fun _ _ => calm_mul _ _ _
  | invSqrt => exact calm_invSqrt 16 method _ h
  | sigmoid => exact calm_sigmoidReciprocal 16 method _ x
  | tanh => exact Calm.bind (calm_sigmoidReciprocal 16 method _ _) fun _ hs => Calm.pure ((hs.mulInt 2).subPub _)
  | cos => exact Calm.bind (calm_eix 16 method _ h) fun _ hz => Calm.pure hz.1
  | sin => exact Calm.bind (calm_eix 16 method _ h) fun _ hz => Calm.pure hz.2

theorem possible_net (method : MaxMethod) (coeffs : ℕ → ℚ) {sh : ℕ → Type} (net : Net sh) (R : Regs 2 sh) (h : ∀ r, (R r).Alone) (c : ℕ) : Possible (run method coeffs net R) c := by
  induction net generalizing R c with
  | nil => exact ⟨fun _ _ => 0, fun _ _ i => reveal_zero i, fun _ _ => trivial⟩
  | cons l rest ih =>
    obtain ⟨d, l⟩ := l
    cases l with
    | basic op => exact possible_op 16 h op (fun a ha c => ih _ (set_alone h d ha) c) c
    | fn f a g => exact Possible.of_calm (calm_fn method coeffs ((h a).reindex g) f) (fun a ha c => ih _ (set_alone h d ha) c) c
    | softmax a m p f g =>
      exact Possible.of_calm (Q := AST.Alone) (Calm.bind (calm_softmax 16 method _ ((h a).reindex f)) fun _ hz => Calm.pure (hz.reindex g)) (fun a ha c => ih _ (set_alone h d ha) c) c
    | logSoftmax a m p f g =>
      exact Possible.of_calm (Q := AST.Alone) (Calm.bind (calm_logSoftmax 16 method _ ((h a).reindex f)) fun _ hz => Calm.pure (hz.reindex g)) (fun a ha c => ih _ (set_alone h d ha) c) c

end Network

/-- **C72, runs without wrap-around.** For every program and every number of parties there are correct tuples with which no truncation of the run wraps around, whatever the inputs and whoever
gives them: the proviso of the accuracy theorem is met by runs of every program. -/
theorem Program.C72_good_run [NeZero n] {sh : ℕ → Type} (k : ℕ) (prog : Prog n sh) (R : Regs n sh) (hR : ∀ r, ∀ p ≠ 0, ∀ i, (R r).share p i = 0) : ∃ T : Tuples n, T.Valid ∧ (run k prog R T 0).good :=
  (possible_prog k prog R hR 0).run

/-- **C93, runs without wrap-around.** The same for networks with activation functions. -/
theorem Network.C93_good_run {sh : ℕ → Type} (method : MaxMethod) (coeffs : ℕ → ℚ) (net : Net sh) (R : Program.Regs 2 sh) (hR : ∀ r, ∀ p ≠ 0, ∀ i, (R r).share p i = 0) :
    ∃ T : Tuples 2, T.Valid ∧ (run method coeffs net R T 0).good :=
  (possible_net method coeffs net R hR 0).run

/-- **C53, runs without wrap-around.** On a tensor held by party 0 (such as one it has encrypted with the zero-shares `0`), every function has runs without wrap-around. -/
theorem Network.C53_good_run (method : MaxMethod) (coeffs : ℕ → ℚ) (f : Fn) (x : AST 2 ι) (hx : ∀ p ≠ 0, ∀ i, x.share p i = 0) : ∃ T : Tuples 2, T.Valid ∧ ∀ c, (f.run method coeffs x T c).good :=
  ⟨hush fun _ _ => 0, Program.hush_valid fun _ _ i => reveal_zero i, fun c => by
    obtain ⟨_, _, _, _, h⟩ := calm_fn method coeffs hx f c
    exact (h _ fun _ _ _ => rfl).2.2⟩

/-- In particular the sample network of `Verif.Props.Network`, whose inputs belong to two parties, has a run of the kind the theorem is about, and it computes what it should. -/
example (method : MaxMethod) (coeffs : ℕ → ℚ) : ∃ T : Tuples 2, T.Valid ∧ (Network.run method coeffs Network.sampleNet Network.netZeros T 0).good :=
  Network.C93_good_run method coeffs _ _ fun _ _ _ _ => rfl

end CrypTen

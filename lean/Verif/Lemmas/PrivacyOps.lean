import Verif.Lemmas.PrivacyBase
import Verif.Model.Functions
import Verif.Model.Program

/-! The protocols of the other modules hide the inputs of a party. -/

namespace CrypTen.Privacy
variable {n : ℕ} {ι ι' κ : Type} {h : Fin n}

/-! ## Local operations -/

theorem addShares_off {a a' b b' : Shares n ι} (ha : Off h a a') (hb : Off h b b') : Off h (addShares a b) (addShares a' b') := fun p hp => by simp only [addShares, ha p hp, hb p hp]
theorem subShares_off {a a' b b' : Shares n ι} (ha : Off h a a') (hb : Off h b b') : Off h (subShares a b) (subShares a' b') := fun p hp => by simp only [subShares, ha p hp, hb p hp]
theorem negShares_off {a a' : Shares n ι} (ha : Off h a a') : Off h (negShares a) (negShares a') := fun p hp => by simp only [negShares, ha p hp]
theorem mulInt_off {a a' : Shares n ι} (ha : Off h a a') (y : Tensor ι) : Off h (mulInt a y) (mulInt a' y) := fun p hp => by simp only [mulInt, ha p hp]
theorem bilinearPublic_off (B : BilinearOp ι ι' κ) {a a' : Shares n ι} (ha : Off h a a') (y : Tensor ι') : Off h (bilinearPublic B a y) (bilinearPublic B a' y) := fun p hp => by simp only [bilinearPublic, ha p hp]
theorem xorShares_off {a a' b b' : Shares n ι} (ha : Off h a a') (hb : Off h b b') : Off h (xorShares a b) (xorShares a' b') := fun p hp => by funext i; simp only [xorShares, ha p hp, hb p hp]
theorem andPublic_off {a a' : Shares n ι} (ha : Off h a a') (y : Tensor ι) : Off h (andPublic a y) (andPublic a' y) := fun p hp => by funext i; simp only [andPublic, ha p hp]
theorem notShares_off [NeZero n] {a a' : Shares n ι} (ha : Off h a a') : Off h (notShares a) (notShares a') := fun p hp => by funext i; simp only [notShares, ha p hp]
theorem lshift_off {a a' : Shares n ι} (ha : Off h a a') (k : ℕ) : Off h (lshiftShares a k) (lshiftShares a' k) := fun p hp => by funext i; simp only [lshiftShares, ha p hp]
theorem rshift_off {a a' : Shares n ι} (ha : Off h a a') (k : ℕ) : Off h (rshiftShares a k) (rshiftShares a' k) := fun p hp => by funext i; simp only [rshiftShares, ha p hp]
theorem subPublic_off [NeZero n] {a a' : Shares n ι} (ha : Off h a a') (y : Tensor ι) : Off h (subPublic a y) (subPublic a' y) := fun p hp => by simp only [subPublic, ha p hp]
theorem map_off {a a' : Shares n ι} (ha : Off h a a') (f : Fin n → Tensor ι → Tensor κ) : Off h (fun p => f p (a p)) (fun p => f p (a' p)) := fun p hp => by simp only [ha p hp]
theorem map2_off {a a' : Shares n ι} {b b' : Shares n ι'} (ha : Off h a a') (hb : Off h b b') (f : Fin n → Tensor ι → Tensor ι' → Tensor κ) : Off h (fun p => f p (a p) (b p)) (fun p => f p (a' p) (b' p)) :=
  fun p hp => by simp only [ha p hp, hb p hp]

theorem andPublic_bit (x : Shares n ι) : IsBit (andPublic x fun _ => 1) := fun i => by
  rw [revealX_andPublic]
  refine ⟨(revealX x i).getLsbD 0, ?_⟩
  apply BitVec.eq_of_getLsbD_eq
  intro j hj
  simp only [BitVec.getLsbD_and, boolI64]
  have h1 : (1 : I64).getLsbD j = decide (j = 0) := by
    rcases j with _ | j
    · rfl
    · simp [BitVec.getLsbD_one]
  rw [h1]
  rcases j with _ | j
  · cases (revealX x i).getLsbD 0 <;> rfl
  · cases (revealX x i).getLsbD 0 <;> simp [BitVec.getLsbD_one]

/-! ## Lists of rows -/

/-- Row by row the same for the others. -/
def LOff (h : Fin n) (l l' : List (Shares n ι)) : Prop := List.Forall₂ (Off h) l l'

theorem LOff.refl (l : List (Shares n ι)) : LOff h l l := by
  induction l with
  | nil => exact .nil
  | cons a l ih => exact .cons (.refl a) ih

theorem LOff.length {l l' : List (Shares n ι)} (e : LOff h l l') : l.length = l'.length := List.Forall₂.length_eq e

theorem LOff.getD {l l' : List (Shares n ι)} (e : LOff h l l') (k : ℕ) (d : Shares n ι) : Off h (l.getD k d) (l'.getD k d) := by
  induction e generalizing k with
  | nil => exact .refl _
  | cons ha _ ih =>
    cases k with
    | zero => exact ha
    | succ k => simpa using ih k

theorem LOff.headD {l l' : List (Shares n ι)} (e : LOff h l l') (d : Shares n ι) : Off h (l.headD d) (l'.headD d) := by
  cases e with
  | nil => exact .refl _
  | cons ha _ => exact ha

theorem LOff.drop {l l' : List (Shares n ι)} (e : LOff h l l') (k : ℕ) : LOff h (l.drop k) (l'.drop k) := List.forall₂_drop k e
theorem LOff.take {l l' : List (Shares n ι)} (e : LOff h l l') (k : ℕ) : LOff h (l.take k) (l'.take k) := List.forall₂_take k e
theorem LOff.append {l l' m m' : List (Shares n ι)} (e : LOff h l l') (f : LOff h m m') : LOff h (l ++ m) (l' ++ m') := List.rel_append e f

theorem LOff.ofFn {m : ℕ} {f f' : Fin m → Shares n ι} (e : ∀ k, Off h (f k) (f' k)) : LOff h (List.ofFn f) (List.ofFn f') := by
  induction m with
  | zero => simp only [List.ofFn_zero]; exact .nil
  | succ m ih => simp only [List.ofFn_succ]; exact .cons (e 0) (ih fun k => e k.succ)

theorem takeRows_off {l l' : List (Shares n ι)} (e : LOff h l l') (k off : ℕ) : Off h (takeRows k off l) (takeRows k off l') := fun p hp => by
  funext j; simp only [takeRows, e.getD _ _ p hp]

theorem unstackRows_off {m : ℕ} {x x' : Shares n (Fin m × ι)} (e : Off h x x') : LOff h (unstackRows x) (unstackRows x') := LOff.ofFn fun k p hp => by funext i; rw [e p hp]

/-! ## Tensors with a scale -/

/-- The same for the others. -/
def ASame (h : Fin n) (x x' : AST n ι) : Prop := x.scale = x'.scale ∧ Off h x.share x'.share

theorem ASame.refl (x : AST n ι) : ASame h x x := ⟨rfl, .refl _⟩

theorem ASame.mk {s s' : Shares n ι} (e : Off h s s') (c : ℕ) : ASame h ⟨s, c⟩ ⟨s', c⟩ := ⟨rfl, e⟩

theorem ASame.neg {x x' : AST n ι} (e : ASame h x x') : ASame h x.neg x'.neg := ⟨e.1, negShares_off e.2⟩
theorem ASame.addPub [NeZero n] {x x' : AST n ι} (e : ASame h x x') (y : ι → ℚ) : ASame h (x.addPub y) (x'.addPub y) := ⟨e.1, by simp only [AST.addPub, e.1]; exact addPublic_off e.2 _⟩
theorem ASame.subPub [NeZero n] {x x' : AST n ι} (e : ASame h x x') (y : ι → ℚ) : ASame h (x.subPub y) (x'.subPub y) := ⟨e.1, by simp only [AST.subPub, e.1]; exact subPublic_off e.2 _⟩
theorem ASame.mulInt {x x' : AST n ι} (e : ASame h x x') (z : ℤ) : ASame h (x.mulInt z) (x'.mulInt z) := ⟨e.1, mulInt_off e.2 _⟩
theorem ASame.oneMinus [NeZero n] {x x' : AST n ι} (e : ASame h x x') : ASame h x.oneMinus x'.oneMinus := e.neg.addPub _
theorem ASame.reindex {x x' : AST n ι} (e : ASame h x x') (g : κ → ι) : ASame h (x.reindex g) (x'.reindex g) := ⟨e.1, map_off e.2 fun _ t k => t (g k)⟩
theorem ASame.sumFirst [Fintype κ] {x x' : AST n (κ × ι)} (e : ASame h x x') : ASame h x.sumFirst x'.sumFirst := ⟨e.1, map_off e.2 fun _ t i => ∑ k, t (k, i)⟩
theorem ASame.pair {x x' y y' : AST n ι} (e : ASame h x x') (f : ASame h y y') : ASame h (x.pair y) (x'.pair y') := ⟨e.1, map2_off e.2 f.2 fun _ t u (k : Bool × ι) => if k.1 then u k.2 else t k.2⟩
theorem ASame.cumsum {m : ℕ} {x x' : AST n (Fin m × κ)} (e : ASame h x x') : ASame h x.cumsum x'.cumsum := ⟨e.1, map_off e.2 fun _ t (jk : Fin m × κ) => ∑ i : Fin m, if i ≤ jk.1 then t (i, jk.2) else 0⟩
theorem ASame.lastRow {m : ℕ} {x x' : AST n (Fin m × κ)} (e : ASame h x x') : ASame h x.lastRow x'.lastRow :=
  ⟨e.1, map_off e.2 fun _ t k => if h : 0 < m then t (⟨m - 1, by omega⟩, k) else 0⟩
theorem ASame.shiftDown {m : ℕ} {x x' : AST n (Fin m × κ)} (e : ASame h x x') : ASame h x.shiftDown x'.shiftDown :=
  ⟨e.1, map_off e.2 fun _ t (jk : Fin m × κ) => if h : jk.1.val = 0 then 0 else t (⟨jk.1.val - 1, by omega⟩, jk.2)⟩

/-! ## Interactive operations -/

variable [NeZero n]

theorem hide_encodeTo (s : ℕ) {x x' : AST n ι} (e : ASame h x x') : Hidden h (ASame h) (x.encodeTo s) (x'.encodeTo s) := by
  unfold AST.encodeTo
  rw [← e.1]
  split
  · exact .pure e
  · split
    · exact .pure ⟨rfl, mulInt_off e.2 _⟩
    · exact .bind .refl (.divInt e.2 _) fun a a' ha => .pure ⟨rfl, ha⟩

theorem hide_add {x x' y y' : AST n ι} (e : ASame h x x') (f : ASame h y y') : Hidden h (ASame h) (x.add y) (x'.add y') := by
  unfold AST.add
  rw [← e.1, ← f.1]
  split
  · exact .bind .refl (hide_encodeTo _ f) fun a a' ha => .pure ⟨rfl, addShares_off e.2 ha.2⟩
  · split
    · exact .bind .refl (hide_encodeTo _ e) fun a a' ha => .pure ⟨rfl, addShares_off ha.2 f.2⟩
    · exact .pure ⟨rfl, addShares_off e.2 f.2⟩

theorem hide_sub {x x' y y' : AST n ι} (e : ASame h x x') (f : ASame h y y') : Hidden h (ASame h) (x.sub y) (x'.sub y') := by
  unfold AST.sub
  rw [← e.1, ← f.1]
  split
  · exact .bind .refl (hide_encodeTo _ f) fun a a' ha => .pure ⟨rfl, subShares_off e.2 ha.2⟩
  · split
    · exact .bind .refl (hide_encodeTo _ e) fun a a' ha => .pure ⟨rfl, subShares_off ha.2 f.2⟩
    · exact .pure ⟨rfl, subShares_off e.2 f.2⟩

theorem hide_divInt {x x' : AST n ι} (e : ASame h x x') (y : ι → ℤ) : Hidden h (ASame h) (x.divInt y) (x'.divInt y) := by
  unfold AST.divInt
  rw [← e.1]
  exact .bind .refl (.divInt e.2 _) fun a a' ha => .pure ⟨rfl, ha⟩

theorem hide_mul (B : BilinearOp ι ι' κ) {x x' : AST n ι} {y y' : AST n ι'} (e : ASame h x x') (f : ASame h y y') : Hidden h (ASame h) (AST.mul B x y) (AST.mul B x' y') := by
  unfold AST.mul
  rw [← e.1, ← f.1]
  refine .bind .refl (.mul B e.2 f.2) fun a a' ha => ?_
  split
  · exact .bind .refl (.divInt ha _) fun a a' ha => .pure ⟨rfl, ha⟩
  · split
    · exact .pure ⟨rfl, ha⟩
    · exact .pure ⟨rfl, ha⟩

theorem hide_mulPub (B : BilinearOp ι ι' κ) {x x' : AST n ι} (e : ASame h x x') (y : ι' → ℚ) : Hidden h (ASame h) (AST.mulPub B x y) (AST.mulPub B x' y) := by
  unfold AST.mulPub
  rw [← e.1]
  have := bilinearPublic_off B e.2 (encodePublic x.scale y)
  dsimp only
  split
  · exact .bind .refl (.divInt this _) fun a a' ha => .pure ⟨rfl, ha⟩
  · exact .pure ⟨rfl, this⟩

theorem hide_square {x x' : AST n ι} (e : ASame h x x') : Hidden h (ASame h) x.square x'.square := by
  unfold AST.square
  rw [← e.1]
  exact .bind .refl (.square e.2) fun a a' ha => .bind .refl (.divInt ha _) fun b b' hb => .pure ⟨rfl, hb⟩

/-! ## Circuits and conversions -/

theorem hide_spkStage (i : ℕ) {x x' : Shares n (Bool × ι)} (e : Off h x x') : Hidden h (Off h) (spkStage i x) (spkStage i x') := by
  unfold spkStage
  refine .bind .refl (.and (map_off (f := fun _ t (k : Bool × ι) => t k.2) (andPublic_off (map_off e fun _ t i => t (true, i)) _)) (map_off (f := fun _ t k => t k * spkMult i) (andPublic_off e _))) fun a a' ha =>
    .pure (xorShares_off (map_off e fun _ t (k : Bool × ι) => if k.1 then t k &&& (spkOutMask i ^^^ (-1)) else t k) ha)

theorem hide_spkLoop (m i : ℕ) {x x' : Shares n (Bool × ι)} (e : Off h x x') : Hidden h (Off h) (spkLoop m i x) (spkLoop m i x') := by
  induction m generalizing i x x' with
  | zero => exact .pure e
  | succ m ih => exact .bind .refl (hide_spkStage i e) fun a a' ha => ih (i + 1) ha

/-- Pairs of sharings. -/
def Off2 (h : Fin n) (x x' : Shares n ι × Shares n κ) : Prop := Off h x.1 x'.1 ∧ Off h x.2 x'.2

omit [NeZero n] in
theorem Off2.refl (x : Shares n ι × Shares n κ) : Off2 h x x := ⟨.refl _, .refl _⟩

theorem hide_spkCircuit {S S' P P' : Shares n ι} (e : Off h S S') (f : Off h P P') : Hidden h (Off2 h) (spkCircuit S P) (spkCircuit S' P') := by
  unfold spkCircuit
  exact .bind .refl (hide_spkLoop 6 0 (map2_off e f fun _ t u (k : Bool × ι) => if k.1 then u k.2 else t k.2)) fun a a' ha => .pure ⟨map_off ha fun _ t i => t (false, i), map_off ha fun _ t i => t (true, i)⟩

theorem hide_pLoop (m s : ℕ) {x x' : Shares n ι} (e : Off h x x') : Hidden h (Off h) (pLoop m s x) (pLoop m s x') := by
  induction m generalizing s x x' with
  | zero => exact .pure e
  | succ m ih => exact .bind .refl (.and e (lshift_off e _)) fun a a' ha => ih _ ha

theorem hide_addX {x x' y y' : Shares n ι} (e : Off h x x') (f : Off h y y') : Hidden h (Off h) (addX x y) (addX x' y') := by
  unfold addX
  exact .bind .refl (.and e f) fun a a' ha => .bind .refl (hide_spkCircuit ha (xorShares_off e f)) fun b b' hb => .pure (xorShares_off (xorShares_off e f) (lshift_off hb.1 _))

theorem hide_eqX {x x' y y' : Shares n ι} (e : Off h x x') (f : Off h y y') : Hidden h (Off h) (eqX x y) (eqX x' y') := by
  unfold eqX
  exact .bind .refl (hide_pLoop 6 32 (notShares_off (xorShares_off e f))) fun a a' ha => .pure (map_off (f := fun _ t i => boolI64 (t i == -1#64)) (rshift_off ha 63))

theorem hide_sumXLoop (m : ℕ) {l l' : List (Shares n ι)} (e : LOff h l l') : Hidden h (LOff h) (sumXLoop m l) (sumXLoop m l') := by
  induction m generalizing l l' with
  | zero => exact .pure e
  | succ m ih =>
    unfold sumXLoop
    rw [← e.length]
    split
    · have step : ∀ {x x' u u' : List (Shares n ι)}, LOff h x x' → LOff h u u' → Hidden h (LOff h)
          (do let y ← addX (takeRows (x.length / 2) 0 x) (takeRows (x.length / 2) (x.length / 2) x); sumXLoop m (unstackRows y ++ u))
          (do let y ← addX (takeRows (x'.length / 2) 0 x') (takeRows (x'.length / 2) (x'.length / 2) x'); sumXLoop m (unstackRows y ++ u')) := fun {x x' u u'} hx hu => by
        rw [← hx.length]
        exact .bind .refl (hide_addX (takeRows_off hx _ _) (takeRows_off hx _ _)) fun a a' ha => ih ((unstackRows_off ha).append hu)
      refine step ?_ ?_
      · split
        · exact e.drop 1
        · exact e
      · split
        · exact e.take 1
        · exact .refl []
    · exact .pure e

theorem hide_sumX {l l' : List (Shares n ι)} (e : LOff h l l') : Hidden h (Off h) (sumX l) (sumX l') := by
  unfold sumX
  rw [← e.length]
  exact .bind .refl (hide_sumXLoop _ e) fun a a' ha => .pure (ha.headD _)

omit [NeZero n] in
theorem hide_shareRows {x x' : Shares n ι} (e : Off h x x') (l : List (Fin n)) : Hidden h (LOff h) (shareRows x l) (shareRows x' l) := by
  induction l with
  | nil => exact .pure .nil
  | cons i l ih => exact .bind .refl (.encryptX fun hi => e i hi) fun a a' ha => .bind .refl ih fun b b' hb => .pure (.cons ha hb)

theorem hide_a2b {x x' : Shares n ι} (e : Off h x x') : Hidden h (Off h) (a2b x) (a2b x') := by
  unfold a2b
  exact .bind .refl (hide_shareRows e _) fun a a' ha => hide_sumX ha

theorem hide_b2aBits (bits : ℕ) {x x' : Shares n ι} (e : Off h x x') : Hidden h (Off h) (b2aBits bits x) (b2aBits bits x') := by
  unfold b2aBits
  split
  · exact .b2aBit (andPublic_off e _) (andPublic_bit _) (andPublic_bit _)
  · exact .bind .refl (.b2aBit (andPublic_off (fun p hp => by funext k; simp only [rshift_off e k.1 p hp]) _) (andPublic_bit _) (andPublic_bit _)) fun a a' ha =>
      .pure (map_off (f := fun _ t i => ∑ k : Fin bits, t (k, i)) (mulInt_off ha _))

theorem hide_b2a (bits s t : ℕ) {x x' : Shares n ι} (e : Off h x x') : Hidden h (Off h) (b2a bits s t x) (b2a bits s t x') := by
  unfold b2a
  exact .bind .refl (hide_b2aBits bits e) fun a a' ha => .pure (mulInt_off ha _)

/-! ## Comparisons -/

/-- Second operands that are the same for the others. -/
inductive OpSame (h : Fin n) : Operand n ι → Operand n ι → Prop where
  | enc {y y' : AST n ι} : ASame h y y' → OpSame h (.enc y) (.enc y')
  | pub (y : ι → ℚ) : OpSame h (.pub y) (.pub y)

theorem hide_ltz (D : ℕ) {x x' : AST n ι} (e : ASame h x x') : Hidden h (ASame h) (x.ltz D) (x'.ltz D) := by
  unfold AST.ltz
  rw [← e.1]
  exact .bind .refl (hide_a2b e.2) fun a a' ha => .bind .refl (hide_b2a _ _ _ (rshift_off ha _)) fun b b' hb => .pure ⟨rfl, hb⟩

theorem hide_subOp {x x' : AST n ι} {y y' : Operand n ι} (e : ASame h x x') (f : OpSame h y y') : Hidden h (ASame h) (x.subOp y) (x'.subOp y') := by
  cases f with
  | enc f => exact hide_sub e f
  | pub y => exact .pure (e.subPub y)

theorem hide_addOp {x x' : AST n ι} {y y' : Operand n ι} (e : ASame h x x') (f : OpSame h y y') : Hidden h (ASame h) (x.addOp y) (x'.addOp y') := by
  cases f with
  | enc f => exact hide_add e f
  | pub y => exact .pure (e.addPub y)

theorem hide_lt (D : ℕ) {x x' : AST n ι} {y y' : Operand n ι} (e : ASame h x x') (f : OpSame h y y') : Hidden h (ASame h) (x.lt D y) (x'.lt D y') :=
  .bind .refl (hide_subOp e f) fun _ _ ha => hide_ltz D ha

theorem hide_gt (D : ℕ) {x x' : AST n ι} {y y' : Operand n ι} (e : ASame h x x') (f : OpSame h y y') : Hidden h (ASame h) (x.gt D y) (x'.gt D y') :=
  .bind .refl (hide_addOp e.neg f) fun _ _ ha => hide_ltz D ha

theorem hide_ge (D : ℕ) {x x' : AST n ι} {y y' : Operand n ι} (e : ASame h x x') (f : OpSame h y y') : Hidden h (ASame h) (x.ge D y) (x'.ge D y') :=
  .bind .refl (hide_lt D e f) fun _ _ ha => .pure ha.oneMinus

theorem hide_le (D : ℕ) {x x' : AST n ι} {y y' : Operand n ι} (e : ASame h x x') (f : OpSame h y y') : Hidden h (ASame h) (x.le D y) (x'.le D y') :=
  .bind .refl (hide_gt D e f) fun _ _ ha => .pure ha.oneMinus

theorem hide_neGen (D : ℕ) {x x' : AST n ι} {y y' : Operand n ι} (e : ASame h x x') (f : OpSame h y y') : Hidden h (ASame h) (x.neGen D y) (x'.neGen D y') :=
  .bind .refl (hide_subOp e f) fun _ _ ha => .bind .refl (hide_ltz D (ha.pair ha.neg)) fun _ _ hb => .pure hb.sumFirst

theorem hide_eqz2PC (D : ℕ) {h : Fin 2} {x x' : AST 2 ι} (e : ASame h x x') : Hidden h (ASame h) (x.eqz2PC D) (x'.eqz2PC D) := by
  unfold AST.eqz2PC
  rw [← e.1]
  exact .bind .refl (.encryptX fun hi => e.2 0 hi) fun a a' ha => .bind .refl (.encryptX fun hi => by rw [e.2 1 hi]) fun b b' hb => .bind .refl (hide_eqX ha hb) fun c c' hc =>
    .bind .refl (hide_b2a _ _ _ hc) fun d d' hd => .pure ⟨rfl, hd⟩

theorem hide_eq2 (D : ℕ) {h : Fin 2} {x x' : AST 2 ι} {y y' : Operand 2 ι} (e : ASame h x x') (f : OpSame h y y') : Hidden h (ASame h) (x.eq2 D y) (x'.eq2 D y') :=
  .bind .refl (hide_subOp e f) fun _ _ ha => hide_eqz2PC D ha

theorem hide_eq (D : ℕ) {x x' : AST n ι} {y y' : Operand n ι} (e : ASame h x x') (f : OpSame h y y') : Hidden h (ASame h) (x.eq D y) (x'.eq D y') := by
  unfold AST.eq
  split
  · rename_i hn
    subst hn
    exact hide_eq2 D e f
  · exact .bind .refl (hide_neGen D e f) fun _ _ ha => .pure ha.oneMinus

theorem hide_ne (D : ℕ) {x x' : AST n ι} {y y' : Operand n ι} (e : ASame h x x') (f : OpSame h y y') : Hidden h (ASame h) (x.ne D y) (x'.ne D y') := by
  unfold AST.ne
  split
  · rename_i hn
    subst hn
    exact .bind .refl (hide_eq2 D e f) fun _ _ ha => .pure ha.oneMinus
  · exact hide_neGen D e f

theorem hide_relu (D : ℕ) {x x' : AST n ι} (e : ASame h x x') : Hidden h (ASame h) (x.relu D) (x'.relu D) :=
  .bind .refl (hide_ge D e (.pub _)) fun _ _ ha => hide_mul _ e ha

/-! ## Random numbers and maximum -/

theorem hide_mpcRand (p : ℕ) (κ : Type) : Hidden h (ASame h) (mpcRand p κ : Proto n (AST n κ)) (mpcRand p κ) :=
  .bind .refl (.kbit p κ) fun _ _ ha => .bind .refl (hide_b2a _ _ _ ha) fun _ _ hb => .pure ⟨rfl, hb⟩

theorem hide_weightedIndexWith (p : ℕ) {m : ℕ} {w w' : AST n (Fin m × κ)} {u u' : AST n κ} (e : ASame h w w') (f : ASame h u u') : Hidden h (ASame h) (w.weightedIndexWith p u) (w'.weightedIndexWith p u') :=
  .bind .refl (hide_mul _ f e.cumsum.lastRow) fun _ _ ha => .bind .refl (hide_gt _ e.cumsum (.enc (ha.reindex Prod.snd))) fun _ _ hb => hide_sub hb hb.shiftDown

theorem hide_weightedIndex (p : ℕ) {m : ℕ} {w w' : AST n (Fin m × κ)} (e : ASame h w w') : Hidden h (ASame h) (w.weightedIndex p) (w'.weightedIndex p) :=
  .bind .refl (hide_mpcRand p κ) fun _ _ ha => hide_weightedIndexWith p e ha

/-- Rows with a scale. -/
def LSame (h : Fin n) (x x' : List (Shares n κ) × ℕ) : Prop := LOff h x.1 x'.1 ∧ x.2 = x'.2

omit [NeZero n] in
theorem LSame.refl (x : List (Shares n κ) × ℕ) : LSame h x x := ⟨.refl _, rfl⟩

theorem hide_prodLoop (m : ℕ) {l l' : List (Shares n κ)} (e : LOff h l l') (s : ℕ) : Hidden h (LSame h) (prodLoop m l s) (prodLoop m l' s) := by
  induction m generalizing l l' s with
  | zero => exact .pure ⟨e, rfl⟩
  | succ m ih =>
    unfold prodLoop
    rw [← e.length]
    split
    · refine .bind .refl (hide_mul _ (.mk (takeRows_off e _ _) s) (.mk (takeRows_off e _ _) s)) fun a a' ha => ?_
      rw [← ha.1]
      exact ih ((unstackRows_off ha.2).append (e.drop _)) _
    · exact .pure ⟨e, rfl⟩

theorem hide_prodFirst {m : ℕ} {x x' : AST n (Fin m × κ)} (e : ASame h x x') : Hidden h (ASame h) x.prodFirst x'.prodFirst := by
  unfold AST.prodFirst
  rw [← e.1]
  exact .bind .refl (hide_prodLoop m (unstackRows_off e.2) _) fun a a' ha => .pure ⟨ha.2, ha.1.headD _⟩

theorem hide_argmaxPairwise (p : ℕ) {m : ℕ} {x x' : AST n (Fin m × κ)} (e : ASame h x x') : Hidden h (ASame h) (x.argmaxPairwise p) (x'.argmaxPairwise p) := by
  unfold AST.argmaxPairwise
  dsimp only
  generalize (if m > 1 then m else 2) = r
  refine .bind .refl (hide_ge _ (e.reindex _) (.enc (e.reindex _))) fun a a' ha => ?_
  split
  · exact hide_prodFirst ha
  · exact hide_ge _ ha.sumFirst (.pub _)

theorem hide_argmaxOneHot (p : ℕ) {m : ℕ} {x x' : AST n (Fin m × κ)} (e : ASame h x x') : Hidden h (ASame h) (x.argmaxOneHotPairwise p) (x'.argmaxOneHotPairwise p) :=
  .bind .refl (hide_argmaxPairwise p e) fun _ _ ha => hide_weightedIndex p ha

theorem hide_maxPairwise (p : ℕ) {m : ℕ} {x x' : AST n (Fin m × κ)} (e : ASame h x x') : Hidden h (ASame h) (x.maxPairwise p) (x'.maxPairwise p) :=
  .bind .refl (hide_argmaxOneHot p e) fun _ _ ha => .bind .refl (hide_mul _ e ha) fun _ _ hb => .pure hb.sumFirst

theorem hide_maxStack (p : ℕ) {l l' : List (Shares n κ)} (e : LOff h l l') (s : ℕ) : Hidden h (ASame h) ((stackAST l s).maxPairwise p) ((stackAST l' s).maxPairwise p) := by
  have hl := e.length
  have : ∀ m, l'.length = m → Hidden h (ASame h) (AST.maxPairwise p (⟨takeRows m 0 l, s⟩ : AST n (Fin m × κ))) ((stackAST l' s).maxPairwise p) := fun m hm => by
    subst hm
    exact hide_maxPairwise p (.mk (takeRows_off e _ _) s)
  exact this l.length hl.symm

theorem hide_where {c c' x x' y y' : AST n ι} (e : ASame h c c') (f : ASame h x x') (g : ASame h y y') : Hidden h (ASame h) (cryptenWhere c x y) (cryptenWhere c' x' y') :=
  .bind .refl (hide_mul _ e f) fun _ _ ha => .bind .refl (hide_mul _ e.oneMinus g) fun _ _ hb => hide_add ha hb

theorem hide_halving (p s steps : ℕ) {l l' : List (Shares n κ)} (e : LOff h l l') : Hidden h (LOff h) (halvingSteps p s steps l) (halvingSteps p s steps l') := by
  induction steps generalizing l l' with
  | zero => exact .pure e
  | succ m ih =>
    unfold halvingSteps
    rw [← e.length]
    exact .bind .refl (hide_ge _ (.mk (takeRows_off e _ _) s) (.enc (.mk (takeRows_off e _ _) s))) fun a a' ha =>
      .bind .refl (hide_where ha (.mk (takeRows_off e _ _) s) (.mk (takeRows_off e _ _) s)) fun b b' hb => ih ((unstackRows_off hb.2).append (e.drop _))

theorem hide_maxLog (p steps : ℕ) {l l' : List (Shares n κ)} (e : LOff h l l') (s : ℕ) : Hidden h (ASame h) (maxLogReduction p steps l s) (maxLogReduction p steps l' s) :=
  .bind .refl (hide_halving p s steps e) fun _ _ ha => hide_maxStack p ha s

theorem hide_maxDoubleLog (p m : ℕ) {κ : Type} {l l' : List (Shares n κ)} (e : LOff h l l') (s : ℕ) : Hidden h (ASame h) (maxDoubleLog p m κ l s) (maxDoubleLog p m κ l' s) := by
  induction m generalizing κ with
  | zero => exact .pure ⟨rfl, e.headD _⟩
  | succ m ih =>
    unfold maxDoubleLog
    rw [← e.length]
    dsimp only
    split
    · exact .pure ⟨rfl, e.headD _⟩
    · exact .bind .refl (ih (LOff.ofFn fun k p hp => by funext j; simp only [e.getD _ _ p hp])) fun a a' ha => hide_maxStack p ((unstackRows_off ha.2).append (e.drop _)) s

theorem hide_maxCascade (p steps : ℕ) {l l' : List (Shares n κ)} (e : LOff h l l') (s : ℕ) : Hidden h (ASame h) (maxCascade p steps l s) (maxCascade p steps l' s) := by
  unfold maxCascade
  by_cases hl : l.length < 3
  · rw [if_pos hl, if_pos (e.length ▸ hl)]
    exact hide_maxStack p e s
  · rw [if_neg hl, if_neg (e.length ▸ hl)]
    refine .bind .refl (hide_halving p s steps e) fun a a' ha => ?_
    rw [← ha.length]
    exact hide_maxDoubleLog p _ ha s

theorem hide_maxFirst (p : ℕ) {m : ℕ} (method : MaxMethod) {x x' : AST n (Fin m × κ)} (e : ASame h x x') : Hidden h (ASame h) (x.maxFirst p method) (x'.maxFirst p method) := by
  unfold AST.maxFirst
  rw [← e.1]
  cases method with
  | pairwise => exact hide_maxPairwise p e
  | logReduction steps => exact hide_maxLog p steps (unstackRows_off e.2) _
  | doubleLog => exact hide_maxDoubleLog p m (unstackRows_off e.2) _
  | cascade steps => exact hide_maxCascade p steps (unstackRows_off e.2) _

theorem hide_argmaxFirst (p : ℕ) {m : ℕ} (method : MaxMethod) {x x' : AST n (Fin m × κ)} (e : ASame h x x') : Hidden h (ASame h) (x.argmaxFirst p method) (x'.argmaxFirst p method) := by
  have tree : Hidden h (ASame h) (do let mx ← x.maxFirst p method; let e ← x.eq (2 ^ p) (.enc (mx.reindex Prod.snd)); e.weightedIndex p)
      (do let mx ← x'.maxFirst p method; let e ← x'.eq (2 ^ p) (.enc (mx.reindex Prod.snd)); e.weightedIndex p) :=
    .bind .refl (hide_maxFirst p method e) fun _ _ ha => .bind .refl (hide_eq _ e (.enc (ha.reindex _))) fun _ _ hb => hide_weightedIndex p hb
  cases method with
  | pairwise => exact hide_argmaxOneHot p e
  | logReduction steps => exact tree
  | doubleLog => exact tree
  | cascade steps => exact tree

end CrypTen.Privacy

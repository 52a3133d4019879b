import Verif.Lemmas.PrivacyFun
import Verif.Props.Circuit

/-!
# Privacy of whole programs

C77: what all parties except one see of a program (their parts of the tuples, everything that is sent, their shares of all results) says nothing about the inputs of that party.
The dealer of the tuples must not be one of them: see `C77_first_party_wrong`.
-/

namespace CrypTen
open Privacy Program
variable {n k : ℕ} {ι κ : Type} {sh : ℕ → Type} {h : Fin n}

namespace Privacy

theorem SameForOthers.view_unique {T T' : Tuples n} (seen : ℕ → Option (Event n)) {S : Tuples n} (hu : SameUnused seen S T) (hu' : SameUnused seen S T') (hs : SameUsed seen T T') : T = T' := by
  have e1 : @Tuples.mul n T = @Tuples.mul n T' := by
    funext k a b c B
    by_cases e : ∃ x y, seen k = some (.mul B x y)
    · obtain ⟨x, y, e⟩ := e; exact hs.mul k B x y e
    · have e' : ∀ x y, seen k ≠ some (.mul B x y) := fun x y he => e ⟨x, y, he⟩
      exact (hu.mul k B e').symm.trans (hu'.mul k B e')
  have e2 : T.square = T'.square := by
    funext k ι
    by_cases e : ∃ x : Shares n ι, seen k = some (.square x)
    · obtain ⟨x, e⟩ := e; exact hs.square k ι x e
    · have e' : ∀ x : Shares n ι, seen k ≠ some (.square x) := fun x he => e ⟨x, he⟩
      exact (hu.square k ι e').symm.trans (hu'.square k ι e')
  have e3 : T.bin = T'.bin := by
    funext k ι
    by_cases e : ∃ x y : Shares n ι, seen k = some (.bin x y)
    · obtain ⟨x, y, e⟩ := e; exact hs.bin k ι x y e
    · have e' : ∀ x y : Shares n ι, seen k ≠ some (.bin x y) := fun x y he => e ⟨x, y, he⟩
      exact (hu.bin k ι e').symm.trans (hu'.bin k ι e')
  have e4 : T.b2a = T'.b2a := by
    funext k ι
    by_cases e : ∃ x : Shares n ι, seen k = some (.b2a x)
    · obtain ⟨x, e⟩ := e; exact hs.b2a k ι x e
    · have e' : ∀ x : Shares n ι, seen k ≠ some (.b2a x) := fun x he => e ⟨x, he⟩
      exact (hu.b2a k ι e').symm.trans (hu'.b2a k ι e')
  have e5 : T.wrap = T'.wrap := by
    funext k ι
    by_cases e : ∃ x : Shares n ι, seen k = some (.wrap x)
    · obtain ⟨x, e⟩ := e; exact hs.wrap k ι x e
    · have e' : ∀ x : Shares n ι, seen k ≠ some (.wrap x) := fun x he => e ⟨x, he⟩
      exact (hu.wrap k ι e').symm.trans (hu'.wrap k ι e')
  have e6 : T.zeroA = T'.zeroA := by funext k ι; exact (hu.zeroA k ι).symm.trans (hu'.zeroA k ι)
  have e7 : T.zeroX = T'.zeroX := by funext k ι; exact (hu.zeroX k ι).symm.trans (hu'.zeroX k ι)
  have e8 : T.kbit = T'.kbit := by funext k b ι; exact (hu.kbit k b ι).symm.trans (hu'.kbit k b ι)
  cases T; cases T'
  simp only [Tuples.mk.injEq]
  exact ⟨e1, e2, e3, e4, e5, e6, e7, e8⟩

theorem SameUnused.symm {seen : ℕ → Option (Event n)} {T T' : Tuples n} (e : SameUnused seen T T') : SameUnused seen T' T :=
  ⟨fun k {_ _ _} B hB => (e.mul k B hB).symm, fun k ι hB => (e.square k ι hB).symm, fun k ι hB => (e.bin k ι hB).symm, fun k ι hB => (e.b2a k ι hB).symm, fun k ι hB => (e.wrap k ι hB).symm,
    fun k ι => (e.zeroA k ι).symm, fun k ι => (e.zeroX k ι).symm, fun k b ι => (e.kbit k b ι).symm⟩

theorem Hidden.view {α : Type} {R : α → α → Prop} {m m' : Proto n α} (hm : Hidden h R m m') (c : ℕ) (T : Tuples n) (hv : T.Valid) :
    ∃ T', T'.Valid ∧ SameView h R T (m T c) T' (m' T' c) ∧ ∀ T'', T''.Valid → SameView h R T (m T c) T'' (m' T'' c) → T'' = T' := by
  obtain ⟨T', v, o, u, _, s, e, r⟩ := hm.exist c T T hv hv fun _ _ => rfl
  refine ⟨T', v, ⟨o, u, e.symm, s.symm, r⟩, fun T'' v'' w => ?_⟩
  have := hm.unique c T T' T'' hv v v'' o w.others (fun k b ι => (u.kbit k b ι).symm.trans (w.unused.kbit k b ι)) (fun k _ _ => by rw [s]) (fun k _ _ => by rw [w.transcript])
  exact (SameForOthers.view_unique _ u w.unused this.2.2.2.2).symm

theorem Hidden.private {α : Type} {R : α → α → Prop} (hR : ∀ a b, R a b → R b a) {m m' : Proto n α} (hm : Hidden h R m m') (hm' : Hidden h R m' m) : Private h R m m' := by
  intro c
  choose f fv fw fu using fun T : {T : Tuples n // T.Valid} => hm.view c T.1 T.2
  choose g gv gw gu using fun T : {T : Tuples n // T.Valid} => hm'.view c T.1 T.2
  have back : ∀ {α : Type} {R : α → α → Prop} (_ : ∀ a b, R a b → R b a) {T T' : Tuples n} {r r' : Run n α} (_ : SameView h R T r T' r'), SameView h R T' r' T r := fun hR _ _ _ _ w =>
    ⟨w.others.symm, w.transcript ▸ w.unused.symm, w.requests.symm, w.transcript.symm, hR _ _ w.result⟩
  refine ⟨⟨fun T => ⟨f T, fv T⟩, fun T => ⟨g T, gv T⟩, fun T => ?_, fun T => ?_⟩, fun T => ⟨fw T, fu T⟩⟩
  · exact Subtype.ext (gu ⟨f T, fv T⟩ T.1 T.2 (back hR (fw T))).symm
  · exact Subtype.ext (fu ⟨g T, gv T⟩ T.1 T.2 (back hR (gw T))).symm

theorem SameTensor.symm (x x' : AST n ι) (e : SameTensor h x x') : SameTensor h x' x := ⟨e.1.symm, fun p hp => (e.2 p hp).symm⟩

theorem set_same [NeZero n] {R R' : Regs n sh} (e : SameRegs h R R') (d : ℕ) {x x' : AST n (sh d)} (f : ASame h x x') : SameRegs h (Program.set (α := AST n) R d x) (Program.set (α := AST n) R' d x') := by
  intro r
  unfold Program.set
  by_cases hr : r = d
  · subst hr; simp only; exact f
  · simp only [dif_neg hr]; exact e r

theorem hide_op [NeZero n] (k : ℕ) {R R' : Regs n sh} (e : SameRegs h R R') {d : ℕ} (op : Op n sh d) : Hidden h (ASame h) (op.run k R) (op.run k R') := by
  have e' : ∀ r, ASame h (R r) (R' r) := e
  cases op with
  | input src x => exact .bind .refl (.encryptA fun _ => rfl) fun _ _ ha => .pure ⟨rfl, ha⟩
  | add a b f g => exact hide_add ((e' a).reindex f) ((e' b).reindex g)
  | sub a b f g => exact hide_sub ((e' a).reindex f) ((e' b).reindex g)
  | neg a f => exact .pure ((e' a).reindex f).neg
  | addPub a f y => exact .pure (((e' a).reindex f).addPub y)
  | mulInt a f z => exact .pure (((e' a).reindex f).mulInt z)
  | mul a b B => exact hide_mul B (e' a) (e' b)
  | mulPub a m B y => exact hide_mulPub B (e' a) y
  | square a f => exact hide_square ((e' a).reindex f)
  | divInt a f z => exact hide_divInt ((e' a).reindex f) _
  | reindex a f => exact .pure ((e' a).reindex f)
  | sum a m f => exact .pure ((e' a).reindex f).sumFirst
  | relu a f => exact hide_relu _ ((e' a).reindex f)
  | max a m f method => exact hide_maxFirst k method ((e' a).reindex f)

theorem hide_program [NeZero n] (k : ℕ) {P P' : Prog n sh} (hP : SameBut h P P') {R R' : Regs n sh} (e : SameRegs h R R') : Hidden h (SameRegs h) (Program.run k P R) (Program.run k P' R') := by
  induction hP generalizing R R' with
  | nil => exact .pure e
  | @cons l l' P P' hl _ ih =>
    rcases hl with rfl | ⟨d, x, x', rfl, rfl⟩
    · obtain ⟨d, op⟩ := l
      exact .bind .refl (hide_op k e op) fun a a' ha => ih (set_same e d ha)
    · exact .bind .refl (m := Op.run k R (.input h x)) (m' := Op.run k R' (.input h x'))
        (.bind .refl (.encryptA fun hh => absurd rfl hh) fun _ _ ha => .pure (R := ASame h) ⟨rfl, ha⟩) fun a a' ha => ih (set_same e d ha)

theorem SameBut.symm {P P' : Prog n sh} (e : SameBut h P P') : SameBut h P' P := by
  unfold SameBut at e ⊢
  refine List.Forall₂.flip (e.imp fun l l' hl => ?_)
  rcases hl with rfl | ⟨d, x, x', rfl, rfl⟩
  · exact .inl rfl
  · exact .inr ⟨d, x', x, rfl, rfl⟩

theorem SameRegs.symm {R R' : Regs n sh} (e : SameRegs h R R') : SameRegs h R' R := fun r => ⟨(e r).1.symm, fun p hp => ((e r).2 p hp).symm⟩

end Privacy

/-- **C77 (programs).** Two programs that differ only in the numbers party `h` enters, run on registers that differ only in the shares of `h`, look the same to all other parties together. -/
theorem C77_private [NeZero n] (h : Fin n) (k : ℕ) {P P' : Prog n sh} (hP : SameBut h P P') {R R' : Regs n sh} (hR : SameRegs h R R') : Private h (SameRegs h) (Program.run k P R) (Program.run k P' R') :=
  (hide_program k hP hR).private (fun _ _ => SameRegs.symm) (hide_program k hP.symm hR.symm)

/-- **C77 (results).** When a result is revealed, the share that `h` sends is fixed by the result and by what the others hold: it says nothing beyond the result. -/
theorem C77_result (h : Fin n) {R R' : Regs n sh} (hR : SameRegs h R R') (r : ℕ) : (R r).share h = (R' r).share h ↔ reveal (R r).share = reveal (R' r).share :=
  ⟨fun e => by rw [Off.ext (hR r).2 e], fun e => by rw [reveal_ext (hR r).2 e]⟩

theorem private_of {ι κ : Type} {h : Fin n} {f : AST n ι → Proto n (AST n κ)} (hf : ∀ {x x' : AST n ι}, ASame h x x' → Hidden h (ASame h) (f x) (f x')) {x x' : AST n ι} (e : SameTensor h x x') :
    Private h (SameTensor h) (f x) (f x') :=
  Hidden.private (R := ASame h) (SameTensor.symm (h := h)) (hf e) (hf (SameTensor.symm _ _ e))

/-- **C77 (elementwise functions).** -/
theorem C77_functions [NeZero n] (h : Fin n) (p : ℕ) (method : MaxMethod) (c : FunCfg) (coeffs : ℕ → ℚ) (list : List ℚ) (lo hi s : ℚ) (m : ℕ) {x x' : AST n ι} (e : SameTensor h x x') :
    let O := mpcOps n p method
    Private h (SameTensor h) (O.sign x) (O.sign x') ∧ Private h (SameTensor h) (O.abs x) (O.abs x') ∧ Private h (SameTensor h) (O.relu x) (O.relu x') ∧
    Private h (SameTensor h) (O.hardtanh lo hi x) (O.hardtanh lo hi x') ∧ Private h (SameTensor h) (O.powPos x m) (O.powPos x' m) ∧ Private h (SameTensor h) (O.polynomial x list) (O.polynomial x' list) ∧
    Private h (SameTensor h) (O.exp c.expIterations x) (O.exp c.expIterations x') ∧ Private h (SameTensor h) (O.log c x) (O.log c x') ∧ Private h (SameTensor h) (O.reciprocal c x) (O.reciprocal c x') ∧
    Private h (SameTensor h) (O.invSqrt c x) (O.invSqrt c x') ∧ Private h (SameTensor h) (O.sqrt c x) (O.sqrt c x') ∧ Private h (SameTensor h) (O.sigmoid c coeffs x) (O.sigmoid c coeffs x') ∧
    Private h (SameTensor h) (O.tanh c coeffs x) (O.tanh c coeffs x') ∧ Private h (SameTensor h) (O.erf c s x) (O.erf c s x') ∧
    Private h (fun z z' => SameTensor h z.1 z'.1 ∧ SameTensor h z.2 z'.2) (O.eix c.trigIterations x) (O.eix c.trigIterations x') :=
  ⟨private_of f_sign e, private_of f_abs e, private_of f_relu e, private_of (f_hardtanh lo hi) e, private_of (f_powPos m) e, private_of (f_polynomial list) e, private_of (f_exp _) e, private_of (f_log c) e,
    private_of (f_reciprocal c) e, private_of (f_invSqrt c) e, private_of (f_sqrt c) e, private_of (f_sigmoid c coeffs) e, private_of (f_tanh c coeffs) e, private_of (f_erf c s) e,
    Hidden.private (R := ASame2 h) (fun _ _ q => ⟨SameTensor.symm _ _ q.1, SameTensor.symm _ _ q.2⟩) (f_eix _ e) (f_eix _ (SameTensor.symm _ _ e))⟩

/-- **C77 (functions along a dimension).** -/
theorem C77_reductions [NeZero n] (h : Fin n) (p : ℕ) (method : MaxMethod) (c : FunCfg) (unbiased : Bool) {m : ℕ} {x x' : AST n (Fin m × ι)} (e : SameTensor h x x') :
    let O := mpcOps n p method
    Private h (SameTensor h) (O.softmax c x) (O.softmax c x') ∧ Private h (SameTensor h) (O.logSoftmax c x) (O.logSoftmax c x') ∧ Private h (SameTensor h) (O.mean x) (O.mean x') ∧
    Private h (SameTensor h) (O.var unbiased x) (O.var unbiased x') ∧ Private h (SameTensor h) (x.prodFirst) (x'.prodFirst) ∧ Private h (SameTensor h) (x.maxFirst p method) (x'.maxFirst p method) ∧
    Private h (SameTensor h) (x.argmaxFirst p method) (x'.argmaxFirst p method) ∧ Private h (SameTensor h) (x.weightedIndex p) (x'.weightedIndex p) :=
  ⟨private_of (f_softmax c) e, private_of (f_logSoftmax c) e, private_of f_mean e, private_of (f_var unbiased) e, private_of hide_prodFirst e, private_of (hide_maxFirst p method) e,
    private_of (hide_argmaxFirst p method) e, private_of (hide_weightedIndex p) e⟩

/-- Two different secrets of the first of two parties meet the hypotheses of `C77_functions`. -/
example : SameTensor (0 : Fin 2) (⟨fun _ _ => 5, 1⟩ : AST 2 Unit) ⟨fun p _ => if p = 0 then 7 else 5, 1⟩ ∧ reveal (n := 2) (fun _ (_ : Unit) => (5 : I64)) () ≠ reveal (n := 2) (fun p (_ : Unit) => if p = 0 then (7 : I64) else 5) () := by
  refine ⟨⟨rfl, fun p hp => by simp [hp]⟩, by decide⟩

/-- Second operands that are the same for all parties except `h`. -/
def SameOperand (h : Fin n) (y y' : Operand n ι) : Prop := (∃ v v', y = .enc v ∧ y' = .enc v' ∧ SameTensor h v v') ∨ (∃ v, y = .pub v ∧ y' = .pub v)

/-- **C77 (comparisons).** Both operands may come from `h`. -/
theorem C77_comparisons [NeZero n] (h : Fin n) (D : ℕ) {x x' : AST n ι} {y y' : Operand n ι} (e : SameTensor h x x') (f : SameOperand h y y') :
    Private h (SameTensor h) (x.lt D y) (x'.lt D y') ∧ Private h (SameTensor h) (x.le D y) (x'.le D y') ∧ Private h (SameTensor h) (x.gt D y) (x'.gt D y') ∧ Private h (SameTensor h) (x.ge D y) (x'.ge D y') ∧
    Private h (SameTensor h) (x.eq D y) (x'.eq D y') ∧ Private h (SameTensor h) (x.ne D y) (x'.ne D y') := by
  have key : ∀ {x x' : AST n ι} {y y' : Operand n ι}, SameOperand h y y' → OpSame h y y' := fun {_ _ _ _} f => by
    rcases f with ⟨v, v', rfl, rfl, hv⟩ | ⟨v, rfl, rfl⟩
    · exact .enc hv
    · exact .pub v
  have f1 := key (x := x) (x' := x') f
  have f2 : OpSame h y' y := by
    cases f1 with
    | enc q => exact .enc (SameTensor.symm _ _ q)
    | pub v => exact .pub v
  have e2 := SameTensor.symm _ _ e
  exact ⟨Hidden.private (R := ASame h) (SameTensor.symm (h := h)) (hide_lt D e f1) (hide_lt D e2 f2), Hidden.private (R := ASame h) (SameTensor.symm (h := h)) (hide_le D e f1) (hide_le D e2 f2),
    Hidden.private (R := ASame h) (SameTensor.symm (h := h)) (hide_gt D e f1) (hide_gt D e2 f2), Hidden.private (R := ASame h) (SameTensor.symm (h := h)) (hide_ge D e f1) (hide_ge D e2 f2),
    Hidden.private (R := ASame h) (SameTensor.symm (h := h)) (hide_eq D e f1) (hide_eq D e2 f2), Hidden.private (R := ASame h) (SameTensor.symm (h := h)) (hide_ne D e f1) (hide_ne D e2 f2)⟩

/-- Party 1 enters a number, and it is squared. -/
def squareOf (x : ℚ) : Prog 2 fun _ => Unit := [⟨0, .input 1 fun _ => x⟩, ⟨1, .square 0 id⟩]

/-- Two programs of two parties meet the hypotheses of `C77_private`. -/
example : SameBut (1 : Fin 2) (squareOf 3) (squareOf 4) ∧ squareOf 3 ≠ squareOf 4 := by
  refine ⟨.cons (.inr ⟨0, _, _, rfl, rfl⟩) (.cons (.inl rfl) .nil), fun e => ?_⟩
  have e1 := (List.cons.inj e).1
  simp only [Sigma.mk.injEq, heq_eq_eq, Op.input.injEq, true_and] at e1
  have := congrFun e1 ()
  norm_num at this

/-- There are tuples to choose from, for every number of parties. -/
example (n : ℕ) [NeZero n] : Nonempty {T : Tuples n // T.Valid} := by
  obtain ⟨T, hv, _⟩ := tuples_exist n
  exact ⟨⟨T, hv⟩⟩

/-- **C77 fails** for the party that deals the tuples (rank 0 with the default provider, /repo/configs/default.yaml:41, /repo/crypten/mpc/provider/tfp_provider.py:18-88): to whoever knows the tuples, the transcript shows
the number of party 1. -/
theorem C77_first_party_wrong (T : Tuples 2) (k c : ℕ) (R : Regs 2 fun _ => Unit) (x x' : ℚ)
    (e : (Program.run k (squareOf x) R T c).seen = (Program.run k (squareOf x') R T c).seen) : toLong ((2 ^ k : ℕ) * x) = toLong ((2 ^ k : ℕ) * x') := by
  have e1 : some (Event.square (subShares (fun p : Fin 2 => if p = 1 then T.zeroA c Unit p + encodePublic (2 ^ k) (fun _ => x) else T.zeroA c Unit p) (T.square (c + 1) Unit).r)) =
      some (Event.square (subShares (fun p : Fin 2 => if p = 1 then T.zeroA c Unit p + encodePublic (2 ^ k) (fun _ => x') else T.zeroA c Unit p) (T.square (c + 1) Unit).r)) := by
    have := congrFun e (c + 1)
    simp only [squareOf, Program.run, Op.run, Program.set, AST.square, bind, pure, Proto.encryptA, Proto.square, Proto.divInt, seenAt, AST.reindex] at this
    simp only [dif_pos, lt_irrefl, if_false, if_true, show c + 1 < c + 1 + 1 + 1 by omega, show c + 1 < c + 1 + 1 by omega] at this
    exact this
  simp only [Option.some.injEq, Event.square.injEq, heq_eq_eq, true_and] at e1
  have := congrFun (congrFun e1 1) ()
  simpa [subShares, encodePublic] using this

end CrypTen

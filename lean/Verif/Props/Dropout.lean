import Verif.Model.Dropout
import Verif.Props.Sampling
import Verif.Props.Sharing

/-! # C54: dropout -/

namespace CrypTen
variable {n k : ℕ} {ι : Type}

/-! ## The mask -/

theorem globalMask_synced {P : Prng} [NeZero n] {w : World P n} (hw : Synced w) (d : Device) (q : ℚ) :
    Synced (w.onAll d (globalMask P k q)).2 ∧ ∀ r r', (w.onAll d (globalMask P k q)).1 r = (w.onAll d (globalMask P k q)).1 r' := by
  refine ⟨⟨fun r d' => ?_, fun r r' d' => ?_⟩, fun r r' => ?_⟩
  · by_cases h : d' = d
    · simp only [World.onAll, h, if_true, globalMask]; exact hw.1 r d
    · simp only [World.onAll, h, if_false]; exact hw.1 r d'
  · by_cases h : d' = d
    · simp only [World.onAll, h, if_true, globalMask]; rw [hw.2 r r' d]
    · simp only [World.onAll, h, if_false]; exact hw.2 r r' d'
  · simp only [World.onAll, globalMask]; rw [hw.2 r r' d]

/-- **C54 (one mask).** After `init` (whatever the seeds) and any history of generator use by the library, all parties draw the same mask. -/
theorem C54_masks_agree (P : Prng) [NeZero n] (ns ls gs : Fin n → ℤ) (h : List (GenOp n)) (d : Device) (q : ℚ) (k : ℕ) :
    ∃ w, syncSeeds P ns ls gs = some w ∧ ∃ m : Fin k → Bool, ∀ r, ((runGen w h).onAll d (globalMask P k q)).1 r = m := by
  obtain ⟨w, hw, hs⟩ := syncSeeds_synced P ns ls gs
  exact ⟨w, hw, _, fun r => (globalMask_synced (runGen_synced hs h) d q).2 r 0⟩

/-- **C54 (one mask) fails for threads**: the threads draw from one generator, one after the other, so their masks differ. -/
theorem C54_masks_threads_wrong : ∃ (P : Prng) (g : PartyGens P), ¬∃ m : Fin 2 → Bool, ∀ m' ∈ masksThreads P 2 (1 / 2) 2 g, m' = m := by
  refine ⟨{ σ := ℕ, manualSeed := fun z => z.toNat, randint := fun _ _ _ s => (fun _ => BitVec.ofNat 64 (s * 2 ^ 23), s + 1) }, ⟨(0 : ℕ), (0 : ℕ), (0 : ℕ), (1 : ℕ)⟩, ?_⟩
  rintro ⟨m, hm⟩
  have h1 := hm _ (List.mem_cons_self)
  have h2 := hm _ (List.mem_cons_of_mem _ List.mem_cons_self)
  have := congrFun (h1.trans h2.symm) 0
  exact absurd this (by decide +kernel)

/-! ## With gradients -/

/-- The factor by which kept entries are multiplied: `1 / (1 - q)` as encoded. -/
def keepFactor (scale : ℕ) (q : ℚ) : ℚ := (truncQ (scale * (1 / (1 - q))) : ℚ) / scale

theorem keepFactor_bounds (scale : ℕ) (hs : 0 < scale) (q : ℚ) (hq : q < 1) : 1 / (1 - q) - 1 / scale < keepFactor scale q ∧ keepFactor scale q ≤ 1 / (1 - q) := by
  have hs' : (0 : ℚ) < scale := by exact_mod_cast hs
  have hq' : 0 < 1 / (1 - q) := one_div_pos.2 (by linarith)
  have h := truncQ_bounds (scale * (1 / (1 - q)))
  obtain ⟨h1, h2, -⟩ := h
  rw [abs_lt] at h1
  rw [abs_of_pos (mul_pos hs' hq')] at h2
  have h3 := le_of_abs_le h2
  unfold keepFactor
  constructor
  · rw [lt_div_iff₀ hs', sub_mul, one_div_mul_cancel hs'.ne', mul_comm (1 / (1 - q))]; linarith
  · rw [div_le_iff₀ hs', mul_comm (1 / (1 - q))]; exact h3

theorem maskedMul_common [NeZero n] (q : ℚ) (ch : ι → Fin k) (m : Fin k → Bool) (x : AST n ι) :
    maskedMul q ch (fun _ => m) x = AST.mulPub (elementwise ι) x fun i => (if m (ch i) then 1 else 0) / (1 - q) := by
  have e : (fun (r : Fin n) i => x.share r i * encodePublic x.scale (fun i => (if m (ch i) then 1 else 0) / (1 - q)) i) = bilinearPublic (elementwise ι) x.share (encodePublic x.scale fun i => (if m (ch i) then (1 : ℚ) else 0) / (1 - q)) := by
    funext r i
    simp [bilinearPublic, BilinearOp.apply, elementwise, Torch.mulOp]
  unfold maskedMul AST.mulPub
  rw [e]

/-- The same mask at all parties: kept entries are multiplied by the factor, dropped entries become zero, each up to `n` units in the last place. -/
theorem sat_maskedMul [NeZero n] (hn : n < 2 ^ 60) (b : ℕ) (hb : 0 < b) (hb' : b ≤ 30) (q : ℚ) (hq0 : 0 ≤ q) (hq1 : q ≤ 1 - 1 / 2 ^ b) (ch : ι → Fin k) (m : Fin k → Bool) (x : AST n ι) (hx : x.scale = 2 ^ b)
    (hfit : ∀ i, Fits (x.scale * x.scale * (x.value i * keepFactor x.scale q))) :
    Sat (maskedMul q ch (fun _ => m) x) fun z => z.scale = x.scale ∧ ∀ i, |z.value i - if m (ch i) then x.value i * keepFactor x.scale q else 0| < n / x.scale := by
  have hp : (0 : ℚ) < 2 ^ b := by positivity
  have hq1' : q < 1 := by
    have : (0 : ℚ) < 1 / 2 ^ b := by positivity
    linarith
  have hsq : (x.scale : ℚ) = 2 ^ b := by rw [hx]; push_cast; rfl
  have hs0 : (0 : ℚ) < x.scale := by rw [hsq]; exact hp
  have key : ∀ i, bilinearQ (elementwise ι) x.value (fun i => (truncQ (x.scale * ((if m (ch i) then 1 else 0) / (1 - q))) : ℚ) / x.scale) i = if m (ch i) then x.value i * keepFactor x.scale q else 0 := by
    intro i
    simp only [bilinearQ, elementwise, Torch.mulOp, List.map_cons, List.map_nil, List.sum_cons, List.sum_nil, id, add_zero, keepFactor]
    cases m (ch i)
    · simp [truncQ_zero]
    · simp
  rw [maskedMul_common]
  refine (C56_mul_public hn (elementwise ι) x _ b hb (by omega) hx (fun i => ?_) (fun i => ?_)).mono fun z hz => ⟨hz.1, fun i => ?_⟩
  · have h1 : 1 / (1 - q) ≤ 2 ^ b := by
      rw [div_le_iff₀ (by linarith)]
      have : 1 / 2 ^ b ≤ 1 - q := by linarith
      rw [div_le_iff₀ hp] at this
      linarith
    have h2 : 0 < 1 / (1 - q) := one_div_pos.2 (by linarith)
    have h3 : (2 : ℚ) ^ b ≤ 2 ^ 30 := pow_le_pow_right₀ (by norm_num) hb'
    rw [hsq]
    cases m (ch i)
    · simp
    · rw [if_pos rfl, abs_of_pos (mul_pos hp h2)]
      calc (2 : ℚ) ^ b * (1 / (1 - q)) ≤ 2 ^ 30 * 2 ^ 30 := mul_le_mul h3 (h1.trans h3) h2.le (by norm_num)
        _ < 2 ^ 63 := by norm_num
  · rw [key]
    cases m (ch i)
    · simp [Fits]
    · rw [if_pos rfl]; exact hfit i
  · have := hz.2 i
    rwa [key] at this

/-- **C54 (training, with gradients).** After `init` and any history, every entry (every channel, for feature dropout) is kept or dropped according to one mask for all parties: kept entries are multiplied by
`1 / (1 - q)` as encoded, dropped ones are zero, up to `n` units in the last place. -/
theorem C54_autograd_partial [NeZero n] (hn : n < 2 ^ 60) (P : Prng) (ns ls gs : Fin n → ℤ) (h : List (GenOp n)) (d : Device) (b : ℕ) (hb : 0 < b) (hb' : b ≤ 30)
    (q : ℚ) (hq0 : 0 ≤ q) (hq1 : q ≤ 1 - 1 / 2 ^ b) (ch : ι → Fin k) (x : AST n ι) (hx : x.scale = 2 ^ b) (hfit : ∀ i, Fits (x.scale * x.scale * (x.value i * keepFactor x.scale q))) :
    ∃ w, syncSeeds P ns ls gs = some w ∧ ∃ m : Fin k → Bool, (∀ r, (globalMask P k q (runGen w h r d)).1 = m) ∧
      Sat (dropoutGrad (runGen w h) d q true ch x).1 fun z => z.scale = x.scale ∧ ∀ i, |z.value i - if m (ch i) then x.value i * keepFactor x.scale q else 0| < n / x.scale := by
  obtain ⟨w, hw, m, hm⟩ := C54_masks_agree P ns ls gs h d q k
  refine ⟨w, hw, m, hm, ?_⟩
  have e : ((runGen w h).onAll d (globalMask P k q)).1 = fun _ => m := funext hm
  show Sat (maskedMul q ch ((runGen w h).onAll d (globalMask P k q)).1 x) _
  rw [e]
  exact sat_maskedMul hn b hb hb' q hq0 hq1 ch m x hx hfit

/-- With one or two parties, dropped entries are exactly zero. -/
theorem C54_dropped_exact [NeZero n] (hn : n ≤ 2) (q : ℚ) (ch : ι → Fin k) (m : Fin k → Bool) (x : AST n ι) (hs : x.scale < 2 ^ 63) (i : ι) (hi : m (ch i) = false) :
    Sat (maskedMul q ch (fun _ => m) x) fun z => z.value i = 0 := by
  have hz : ∀ r : Fin n, x.share r i * encodePublic x.scale (fun i => (if m (ch i) then 1 else 0) / (1 - q)) i = 0 := by
    intro r
    have : encodePublic x.scale (fun i => (if m (ch i) then 1 else 0) / (1 - q)) i = 0 := by
      rw [encodePublic_ofInt, hi]; simp [truncQ_zero]
    rw [this]; exact BitVec.mul_zero
  intro T hT c hg
  unfold maskedMul
  dsimp only
  split
  · rename_i hs1
    show AST.value ⟨divInt (T.wrap c ι) _ fun _ => (x.scale : ℤ), x.scale⟩ i = 0
    have : reveal (divInt (T.wrap c ι) (fun (r : Fin n) i => x.share r i * encodePublic x.scale (fun i => (if m (ch i) then 1 else 0) / (1 - q)) i) fun _ => (x.scale : ℤ)) i = 0 := by
      rw [divInt, if_neg (by omega), reveal_apply]
      refine Finset.sum_eq_zero fun p _ => ?_
      show tdivI64 (x.share p i * encodePublic x.scale (fun i => (if m (ch i) then 1 else 0) / (1 - q)) i) (BitVec.ofInt 64 (x.scale : ℤ)) = 0
      rw [hz p]
      have := tdivI64_ofInt (0 : I64) (y := (x.scale : ℤ)) (by omega) (by exact_mod_cast hs)
      rw [this]; simp
    rw [AST.value, this]; simp
  · show AST.value ⟨_, x.scale⟩ i = 0
    have : reveal (fun (r : Fin n) i => x.share r i * encodePublic x.scale (fun i => (if m (ch i) then 1 else 0) / (1 - q)) i) i = 0 := by
      rw [reveal_apply]
      exact Finset.sum_eq_zero fun p _ => hz p
    rw [AST.value, this]; simp

/-- If two parties used different masks, the result would depend on the shares and not on the secret: with the first party keeping an entry and the second dropping it, the secret 0 can come out as any share. -/
theorem C54_masks_must_agree (s : I64) : ∃ x : AST 2 Unit, x.scale = 1 ∧ x.value () = 0 ∧ ∀ T c,
    reveal (maskedMul 0 (fun _ => (0 : Fin 1)) (fun r _ => r == 0) x T c).val.share () = s := by
  refine ⟨⟨fun r _ => if r = 0 then s else -s, 1⟩, rfl, ?_, fun T c => ?_⟩
  · have : reveal (fun (r : Fin 2) (_ : Unit) => if r = 0 then s else -s) () = 0 := by
      rw [reveal_apply]; simp
    rw [AST.value, this]; simp
  · have e1 : toLong ((1 : ℕ) * ((1 : ℚ) / (1 - 0))) = 1 := by decide +kernel
    have e2 : toLong ((1 : ℕ) * ((0 : ℚ) / (1 - 0))) = 0 := by decide +kernel
    show reveal (fun (r : Fin 2) (_ : Unit) => (if r = 0 then s else -s) * encodePublic 1 (fun _ => (if (r == 0) = true then (1 : ℚ) else 0) / (1 - 0)) ()) () = s
    rw [reveal_apply, Fin.sum_univ_two]
    have h0 : encodePublic 1 (fun _ : Unit => (if ((0 : Fin 2) == 0) = true then (1 : ℚ) else 0) / (1 - 0)) () = 1 := e1
    have h1 : encodePublic 1 (fun _ : Unit => (if ((1 : Fin 2) == 0) = true then (1 : ℚ) else 0) / (1 - 0)) () = 0 := e2
    rw [h0, h1]
    simp

/-! ## Evaluation mode -/

/-- **C54 (evaluation).** With gradients: unchanged, and no generator advances. Without: unchanged for every accepted probability but 1. -/
theorem C54_eval_partial [NeZero n] {P : Prng} (w : World P n) (d : Device) (b : ℕ) (q : ℚ) (ch : ι → Fin k) (x : AST n ι) :
    dropoutGrad w d q false ch x = (pure x, w) ∧ (0 ≤ q → q < 1 → dropoutFn b q false x = some (pure x)) := by
  refine ⟨rfl, fun h0 h1 => ?_⟩
  unfold dropoutFn
  by_cases hq : q = 0
  · rw [if_pos hq]
  · rw [if_neg hq, if_neg (by linarith), if_neg (by push Not; exact ⟨lt_of_le_of_ne h0 (Ne.symm hq), h1⟩)]; rfl

/-- **C54 (evaluation) fails for probability 1** on tensors without gradient: the input is erased also in evaluation mode. -/
theorem C54_eval_one_wrong [NeZero n] (b : ℕ) (x : AST n ι) (hx : 0 < x.scale) :
    ∃ p, dropoutFn b 1 false x = some p ∧ SatX p fun z => ∀ i, z.value i = 0 := by
  refine ⟨x.sub x, by simp [dropoutFn], ?_⟩
  refine (C56_sub x x ⟨hx, hx, Or.inl dvd_rfl⟩ (fun i => by rw [sub_self]; simp [Fits])).mono fun z hz i => ?_
  rw [hz.2, sub_self]

/-- Probabilities outside `[0, 1]` are refused. -/
theorem C54_refused_iff [NeZero n] (b : ℕ) (q : ℚ) (t : Bool) (x : AST n ι) : dropoutFn b q t x = none ↔ q < 0 ∨ 1 < q := by
  unfold dropoutFn
  by_cases h0 : q = 0
  · rw [if_pos h0, h0]; simp
  · rw [if_neg h0]
    by_cases h1 : q = 1
    · rw [if_pos h1, h1]; simp
    · rw [if_neg h1]
      by_cases h : 0 < q ∧ q < 1
      · rw [if_neg (by simpa using h)]
        constructor
        · intro h'; cases t <;> simp at h'
        · rintro (h' | h') <;> linarith [h.1, h.2]
      · rw [if_pos h]
        simp only [true_iff]
        by_contra hc
        push Not at hc
        exact h ⟨lt_of_le_of_ne hc.1 (Ne.symm h0), lt_of_le_of_ne hc.2 h1⟩

/-! ## Without gradients -/

theorem sat_keepBit [NeZero n] (b : ℕ) (hb0 : 0 < b) (hb : b ≤ 61) (q : ℚ) (hq0 : 0 < q) (hq1 : q < 1) (T : Tuples n) (hT : T.Valid) (c : ℕ) :
    (dropoutKeep b q T c : Run n (AST n ι)).good ∧
    IsBit (dropoutKeep b q T c : Run n (AST n ι)).val fun i => decide (truncQ (2 ^ b * q) < (drawn T c b ι i : ℤ)) := by
  obtain ⟨g1, h1, h2⟩ := rand_word b (by omega) T hT c (κ := ι)
  have hv := fun k => C52_rand_value b hb0 (by omega) T hT c (κ := ι) k
  have hpos : (0 : ℚ) < 2 ^ b := by positivity
  have hpow : (2 : ℚ) ^ b ≤ 2 ^ 61 := pow_le_pow_right₀ (by norm_num) hb
  have hqp : 2 ^ b * q < 2 ^ b := by nlinarith
  have htb := (truncQ_bounds (2 ^ b * q)).1
  rw [abs_lt] at htb
  have hqq := mul_pos hpos hq0
  have h := sat_gt_bit (D := 2 ^ b) (Nat.two_pow_pos b) (mpcRand b ι T c).val (Or.inr h1) (.pub fun _ => q) trivial (fun k => by
    simp only [Operand.jointScale, Operand.valueAt, h1]
    obtain ⟨-, h3, h4⟩ := hv k
    push_cast
    rw [mul_sub, mul_div_cancel₀ _ hpos.ne']
    constructor <;> nlinarith) T hT (mpcRand b ι T c).ctr
  refine ⟨⟨g1, h.1⟩, h.2.1, fun i => (h.2.2 i).trans ?_⟩
  congr 1
  rw [decide_eq_decide, (hv i).1]
  simp only [Operand.valueAt, h1]
  push_cast
  rw [div_lt_div_iff_of_pos_right hpos]
  exact_mod_cast Iff.rfl

/-- **C54 (training, without gradients).** Entry `i` is kept exactly if the random number `R i / 2^b` that was drawn for it exceeds the encoded probability; kept entries are multiplied by `1 / (1 - q)` as encoded
(up to `n` units in the last place), dropped ones are exactly zero. -/
theorem C54_function [NeZero n] (hn : n < 2 ^ 60) (b : ℕ) (hb : 0 < b) (hb' : b ≤ 30) (q : ℚ) (hq0 : 0 < q) (hq1 : q ≤ 1 - 1 / 2 ^ b) (x : AST n ι) (hx : x.scale = 2 ^ b)
    (hfit : ∀ i, Fits (x.scale * x.scale * (x.value i * keepFactor x.scale q))) :
    ∃ p, dropoutFn b q true x = some p ∧ ∀ T : Tuples n, T.Valid → ∀ c, (p T c).good → ∀ i,
      if truncQ (2 ^ b * q) < (drawn T c b ι i : ℤ) then |(p T c).val.value i - x.value i * keepFactor x.scale q| < n / x.scale else (p T c).val.value i = 0 := by
  have hp : (0 : ℚ) < 2 ^ b := by positivity
  have hq1' : q < 1 := by
    have : (0 : ℚ) < 1 / 2 ^ b := by positivity
    linarith
  refine ⟨dropoutKeep b q >>= dropoutApply q x, by unfold dropoutFn; rw [if_neg hq0.ne', if_neg hq1'.ne, if_neg (by simp [hq0, hq1'])]; rfl, ?_⟩
  intro T hT c hg i
  obtain ⟨hkg, hkb⟩ := sat_keepBit (ι := ι) (n := n) b hb (by omega) q hq0 hq1' T hT c
  obtain ⟨r, hr⟩ : ∃ r, dropoutKeep b q T c = (r : Run n (AST n ι)) := ⟨_, rfl⟩
  rw [hr] at hkg hkb
  have hval : ((dropoutKeep b q >>= dropoutApply q x : Proto n (AST n ι)) T c).val = (dropoutApply q x r.val T r.ctr).val := by rw [← hr]; rfl
  have hgood : (dropoutApply q x r.val T r.ctr).good := by
    rw [← hr]
    exact hg.2
  have hm := sat_maskedMul hn b hb hb' q hq0.le hq1 (fun _ : ι => (0 : Fin 1)) (fun _ => true) x hx hfit
  rw [maskedMul_common] at hm
  simp only [if_true] at hm
  have hs0 : 0 < x.scale := by rw [hx]; exact Nat.two_pow_pos b
  have hsat : Sat (dropoutApply q x r.val) fun z => if truncQ (2 ^ b * q) < (drawn T c b ι i : ℤ) then |z.value i - x.value i * keepFactor x.scale q| < n / x.scale else z.value i = 0 := by
    refine Sat.bind hm fun y hy => ?_
    have hy0 : 0 < y.scale := by rw [hy.1]; exact hs0
    refine (C56_mul_unscaled (elementwise ι) y r.val hy0 (by rw [hkb.1]; norm_num) (Or.inr hkb.1) (fun j => ?_)).sat.mono fun z hz => ?_
    · rw [hkb.1]
      simp only [bilinearQ, elementwise, Torch.mulOp, List.map_cons, List.map_nil, List.sum_cons, List.sum_nil, id, add_zero]
      rw [hkb.value]
      have hw := word_eq_value (x := y) hy0 j
      have h1 := toInt_ge (reveal y.share j)
      have h2 := toInt_lt (reveal y.share j)
      push_cast
      split
      · rw [mul_one, mul_one, ← hw]
        exact ⟨by exact_mod_cast h1, by exact_mod_cast h2⟩
      · simp [Fits]
    · have := hz.2 i
      simp only [bilinearQ, elementwise, Torch.mulOp, List.map_cons, List.map_nil, List.sum_cons, List.sum_nil, id, add_zero] at this
      rw [hkb.value] at this
      simp only [decide_eq_true_eq] at this
      split
      · rename_i hlt
        rw [if_pos hlt, mul_one] at this
        rw [this]; exact hy.2 i
      · rename_i hlt
        rw [if_neg hlt, mul_zero] at this
        exact this
  have := hsat T hT r.ctr hgood
  rw [hval]
  exact this

/-- Of the `2^b` equally likely random numbers (`C52_rand_uniform`), exactly `2^b - 1 - trunc(2^b q)` keep an entry. -/
theorem C54_keep_count (b : ℕ) (q : ℚ) (hq0 : 0 ≤ q) (hq1 : q < 1) :
    (((Finset.range (2 ^ b)).filter fun R : ℕ => truncQ (2 ^ b * q) < (R : ℤ)).card : ℤ) = 2 ^ b - 1 - truncQ (2 ^ b * q) := by
  have hp : (0 : ℚ) < 2 ^ b := by positivity
  have h := truncQ_bounds (2 ^ b * q)
  have h0 : 0 ≤ truncQ (2 ^ b * q) := by
    have : 0 ≤ 2 ^ b * q := by positivity
    unfold truncQ; rw [if_pos this]; exact Int.floor_nonneg.2 this
  have h1 : truncQ (2 ^ b * q) < 2 ^ b := by
    have h2 := le_of_abs_le h.2.1
    rw [abs_of_nonneg (by positivity)] at h2
    have : (truncQ (2 ^ b * q) : ℚ) < 2 ^ b := by nlinarith
    exact_mod_cast this
  obtain ⟨t, ht⟩ := Int.eq_ofNat_of_zero_le h0
  rw [ht] at h1 ⊢
  have e : ((Finset.range (2 ^ b)).filter fun R : ℕ => (t : ℤ) < (R : ℤ)) = Finset.Ico (t + 1) (2 ^ b) := by
    ext R
    simp only [Finset.mem_filter, Finset.mem_range, Finset.mem_Ico]
    have : ((t : ℤ) < R) ↔ t < R := by exact_mod_cast Iff.rfl
    rw [this]; omega
  show ((Finset.filter (fun R : ℕ => (t : ℤ) < (R : ℤ)) (Finset.range (2 ^ b))).card : ℤ) = _
  rw [e, Nat.card_Ico]
  have : t + 1 ≤ 2 ^ b := by
    have : (t : ℤ) < (2 ^ b : ℕ) := by push_cast; exact h1
    have : t < 2 ^ b := by exact_mod_cast this
    omega
  push_cast [this]
  ring

/-- **C54 (expectation).** The mean factor over the random numbers is 1 up to a relative error of `2 / ((1 - q) 2^b)`, and never above 1. -/
theorem C54_expectation (b : ℕ) (q : ℚ) (hq0 : 0 ≤ q) (hq1 : q < 1) :
    1 - 2 / ((1 - q) * 2 ^ b) ≤ keepFactor (2 ^ b) q * ((((Finset.range (2 ^ b)).filter fun R : ℕ => truncQ (2 ^ b * q) < (R : ℤ)).card : ℚ) / 2 ^ b) ∧
    keepFactor (2 ^ b) q * ((((Finset.range (2 ^ b)).filter fun R : ℕ => truncQ (2 ^ b * q) < (R : ℤ)).card : ℚ) / 2 ^ b) ≤ 1 := by
  have hp : (0 : ℚ) < 2 ^ b := by positivity
  have hc : ((((Finset.range (2 ^ b)).filter fun R : ℕ => truncQ (2 ^ b * q) < (R : ℤ)).card : ℤ) : ℚ) = ((2 ^ b - 1 - truncQ (2 ^ b * q) : ℤ) : ℚ) := by rw [C54_keep_count b q hq0 hq1]
  push_cast at hc
  have hnn : (0 : ℚ) ≤ (((Finset.range (2 ^ b)).filter fun R : ℕ => truncQ (2 ^ b * q) < (R : ℤ)).card : ℚ) := by positivity
  rw [hc] at hnn ⊢
  have h := truncQ_bounds (2 ^ b * q)
  have h2 := le_of_abs_le h.2.1
  rw [abs_of_nonneg (by positivity)] at h2
  have h1 := h.1
  rw [abs_lt] at h1
  obtain ⟨f1, f2⟩ := keepFactor_bounds (2 ^ b) (Nat.two_pow_pos b) q hq1
  push_cast at f1
  have hq : 0 < 1 - q := by linarith
  have hf0 : 0 ≤ keepFactor (2 ^ b) q := by
    by_contra hneg
    push Not at hneg
    have : 1 / (1 - q) ≥ 1 := by rw [ge_iff_le, le_div_iff₀ hq]; linarith
    have h3 : (1 : ℚ) / 2 ^ b ≤ 1 := by rw [div_le_one hp]; exact one_le_pow₀ (by norm_num)
    linarith
  generalize (truncQ (2 ^ b * q) : ℚ) = t at *
  generalize keepFactor (2 ^ b) q = f at *
  generalize (2 : ℚ) ^ b = N at *
  have hr : (N - 1 - t) / N ≤ 1 - q := by rw [div_le_iff₀ hp]; nlinarith
  have hr0 : 0 ≤ (N - 1 - t) / N := div_nonneg hnn hp.le
  have hr1 : 1 - q - 1 / N ≤ (N - 1 - t) / N := by
    rw [le_div_iff₀ hp, sub_mul, one_div_mul_cancel hp.ne']; nlinarith
  constructor
  · have e1 : 1 - 2 / ((1 - q) * N) ≤ (1 / (1 - q) - 1 / N) * (1 - q) - 1 / (1 - q) * (1 / N) := by
      have : (1 / (1 - q) - 1 / N) * (1 - q) - 1 / (1 - q) * (1 / N) - (1 - 2 / ((1 - q) * N)) = (1 - (1 - q) ^ 2) / ((1 - q) * N) := by field_simp; ring
      have h3 : 0 ≤ (1 - (1 - q) ^ 2) / ((1 - q) * N) := div_nonneg (by nlinarith) (by positivity)
      linarith
    have e2 : (1 / (1 - q) - 1 / N) * (1 - q) ≤ f * (1 - q) := mul_le_mul_of_nonneg_right f1.le hq.le
    have e3 : f * (1 / N) ≤ 1 / (1 - q) * (1 / N) := mul_le_mul_of_nonneg_right f2 (by positivity)
    have e4 : f * (1 - q - 1 / N) ≤ f * ((N - 1 - t) / N) := mul_le_mul_of_nonneg_left hr1 hf0
    nlinarith
  · calc f * ((N - 1 - t) / N) ≤ 1 / (1 - q) * (1 - q) := mul_le_mul f2 hr hr0 (by positivity)
      _ = 1 := by field_simp

/-! ## Examples -/

/-- Three parties, probability 1/4, one channel with two entries. -/
example (P : Prng) (ns ls gs : Fin 3 → ℤ) (x : AST 3 (Fin 2)) (hx : x.scale = 2 ^ 16) (h : ∀ i, x.value i = 5) :
    ∃ w, syncSeeds P ns ls gs = some w ∧ ∃ m : Fin 1 → Bool, (∀ r, (globalMask P 1 (1 / 4) (runGen w [.globalDraw 0 0 1 7] r 0)).1 = m) ∧
      Sat (dropoutGrad (runGen w [.globalDraw 0 0 1 7]) 0 (1 / 4) true (fun _ => (0 : Fin 1)) x).1 fun z => z.scale = x.scale ∧ ∀ i : Fin 2, |z.value i - if m (0 : Fin 1) then x.value i * keepFactor x.scale (1 / 4) else 0| < (3 : ℕ) / x.scale := by
  refine C54_autograd_partial (by norm_num) P ns ls gs _ 0 16 (by norm_num) (by norm_num) (1 / 4) (by norm_num) (by norm_num) (fun _ => 0) x hx fun i => ?_
  obtain ⟨h1, h2⟩ := keepFactor_bounds x.scale (by rw [hx]; norm_num) (1 / 4) (by norm_num)
  rw [h, hx] at *
  norm_num at h1 h2 ⊢
  constructor <;> nlinarith

example : ∃ p : Proto 2 (AST 2 Unit), dropoutFn 16 (1 / 2) true ⟨fun _ _ => 0, 2 ^ 16⟩ = some p := by
  obtain ⟨p, hp, -⟩ := C54_function (n := 2) (by norm_num) 16 (by norm_num) (by norm_num) (1 / 2) (by norm_num) (by norm_num) (⟨fun _ _ => 0, 2 ^ 16⟩ : AST 2 Unit) rfl (fun i => by
    have : AST.value (⟨fun _ _ => 0, 2 ^ 16⟩ : AST 2 Unit) i = 0 := by
      have : reveal (fun (_ : Fin 2) (_ : Unit) => (0 : I64)) i = 0 := by rw [reveal_apply]; simp
      rw [AST.value, this]; simp
    rw [this]; simp [Fits])
  exact ⟨p, hp⟩

end CrypTen

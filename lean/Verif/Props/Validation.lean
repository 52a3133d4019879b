import Mathlib.Algebra.Order.Ring.Abs
import Mathlib.Tactic.Linarith
import Mathlib.Tactic.NormNum
import Verif.Spec.Validation
import Verif.Props.Truncate
import Verif.Props.Encoder

/-!
# Validation mode

C73: validation changes no results; what passes agrees with torch; out-of-place methods whose results agree pass. In-place methods, comparisons and attributes are disturbed.
-/

namespace CrypTen.Validation
variable {σ : Type}

theorem passes_iff {tolerance r t : ℚ} (h : 0 ≤ tolerance) : passes tolerance r t = true ↔ |r - t| ≤ tolerance / 10 ∨ |r - t| ≤ tolerance * (|r| + |t|) := by
  have e : tolerance * (1 / 10) = tolerance / 10 := by ring
  have h0 : 0 ≤ |r| + |t| := by positivity
  unfold passes
  rw [Bool.or_eq_true, Bool.and_eq_true, decide_eq_true_iff, decide_eq_true_iff, decide_eq_true_iff, e]
  by_cases hz : |r| + |t| = 0
  · have hr : r = 0 := abs_eq_zero.1 (by linarith [abs_nonneg r, abs_nonneg t])
    have ht : t = 0 := abs_eq_zero.1 (by linarith [abs_nonneg r, abs_nonneg t])
    subst hr ht
    simp; linarith
  · have hp : 0 < |r| + |t| := lt_of_le_of_ne h0 (Ne.symm hz)
    rw [div_le_iff₀ hp]
    tauto

theorem compare_tensor_iff {tolerance : ℚ} (h : 0 ≤ tolerance) (r t : Plain) : compare tolerance (.tensor r) (.tensor t) = .ok () ↔ Agree tolerance r t := by
  show (if r.size ≠ t.size then Except.error Err.size else if _ then Except.ok () else .error .values) = .ok () ↔ _
  unfold Agree
  by_cases hs : r.size = t.size
  · rw [if_neg (not_not.2 hs)]
    constructor
    · intro h'
      split at h'
      · rename_i ha
        refine ⟨hs, fun q hq => (passes_iff h).1 (List.all_eq_true.1 ha q hq)⟩
      · exact nomatch h'
    · intro h'
      rw [if_pos (List.all_eq_true.2 fun q hq => (passes_iff h).2 (h'.2 q hq))]
  · rw [if_pos hs]
    exact ⟨fun h' => (nomatch h'), fun h' => absurd h'.1 hs⟩

theorem compare_values {tolerance : ℚ} {r t : Plain} (hs : r.size = t.size) (h : ¬ (r.data.zip t.data).all (fun q => passes tolerance q.1 q.2) = true) :
    compare tolerance (.tensor r) (.tensor t) = .error .values := by
  show (if r.size ≠ t.size then Except.error Err.size else if (r.data.zip t.data).all (fun q => passes tolerance q.1 q.2) then Except.ok () else .error .values) = _
  rw [if_neg (not_not.2 hs), if_neg h]

/-- **C73 (transparent).** A validated method that returns has returned the result, and left the state, of the method without validation. -/
theorem C73_transparent (tolerance : ℚ) (func : Method σ) (torch : σ → Except Err Ref) (v : Bool) (s : σ) (out : Res × σ) (h : validated tolerance func torch v s = .ok out) :
    func false s = .ok out := by
  unfold validated at h
  cases hf : func false s with
  | error e => rw [hf] at h; exact nomatch h
  | ok o =>
    rw [hf] at h
    change (torch o.2).bind _ = _ at h
    cases ht : torch o.2 with
    | error e => rw [ht] at h; exact nomatch h
    | ok ref =>
      rw [ht] at h
      change (compare tolerance o.1 ref).bind _ = _ at h
      cases hc : compare tolerance o.1 ref with
      | error e => rw [hc] at h; exact nomatch h
      | ok u => rw [hc] at h; exact h

/-- **C73 (wrong results are rejected).** If torch computes a tensor, then what a validated method returns agrees with it. -/
theorem C73_sound {tolerance : ℚ} (ht : 0 ≤ tolerance) (func : Method σ) (torch : σ → Except Err Ref) (v : Bool) (s s' : σ) (r : Res) (t : Plain)
    (href : torch s' = .ok (.tensor t)) (h : validated tolerance func torch v s = .ok (r, s')) : ∃ p, r = .tensor p ∧ Agree tolerance p t := by
  have hf := C73_transparent tolerance func torch v s _ h
  unfold validated at h
  rw [hf] at h
  change (torch s').bind _ = _ at h
  rw [href] at h
  change (compare tolerance r (.tensor t)).bind _ = _ at h
  cases hc : compare tolerance r (.tensor t) with
  | error e => rw [hc] at h; exact nomatch h
  | ok u =>
    cases r with
    | other => exact nomatch hc
    | tensor p => exact ⟨p, rfl, (compare_tensor_iff ht p t).1 hc⟩

/-- **C73 (right results pass).** For methods after which torch computes the same from the plaintexts as before (methods that are not in-place). Missing: in-place methods
(`C73_inplace_wrong`), methods of which torch returns a mask (`C73_comparison_wrong`), and methods whose arguments torch rejects. -/
theorem C73_complete_partial {tolerance : ℚ} (ht : 0 ≤ tolerance) (func : Method σ) (torch : σ → Except Err Ref) (v : Bool) (s s' : σ) (p t : Plain)
    (hf : func false s = .ok (.tensor p, s')) (hpure : torch s' = torch s) (href : torch s = .ok (.tensor t)) (hagree : Agree tolerance p t) :
    validated tolerance func torch v s = func false s := by
  unfold validated
  rw [hf]
  show ((torch s').bind fun ref => (compare tolerance (.tensor p) ref).bind fun _ => .ok (Res.tensor p, s')) = _
  rw [hpure, href]
  show ((compare tolerance (.tensor p) (.tensor t)).bind fun _ => .ok (Res.tensor p, s')) = _
  rw [(compare_tensor_iff ht p t).2 hagree]
  rfl

/-- **C73 (switched off).** Without validation mode every attribute is what it was. -/
theorem C73_off (attr : Attr σ) (torch : Option (σ → Except Err Ref)) : getattr false attr torch = attr := rfl

/-- **C73 (nothing to compare with).** Attributes that torch tensors do not have are what they were, with validation mode and without. -/
theorem C73_unknown (mode : Bool) (attr : Attr σ) : getattr mode attr none = attr := by cases mode <;> rfl

/-- The number `x` as a tensor with one entry. -/
def scalar (x : ℚ) : Plain := ⟨[], [x]⟩

/-- A correct method and torch's method for `x * c`; the state is `x`. -/
def times (c : ℚ) : Method ℚ := fun _ x => .ok (.tensor (scalar (x * c)), x)

def torchTimes (c : ℚ) : ℚ → Except Err Ref := fun x => .ok (.tensor (scalar (x * c)))

/-- `copy_`. -/
def store : Res → ℚ → ℚ
  | .tensor p, x => p.data.headD x
  | .other, x => x

/-- The theorems apply to an exact method and reject a wrong one. -/
example : validated (1 / 2) (times 10) (torchTimes 10) true 7 = .ok (.tensor (scalar 70), 7) ∧
    validated (1 / 2) (times 100) (torchTimes 10) true 7 = .error .values := by
  constructor
  · have h := C73_complete_partial (tolerance := 1 / 2) (by norm_num) (times 10) (torchTimes 10) true 7 7 (scalar 70) (scalar 70) (by norm_num [times]) rfl (by norm_num [torchTimes])
      ⟨rfl, fun q hq => by
        have : q = (70, 70) := by simpa [scalar] using hq
        subst this; norm_num⟩
    rw [h]; norm_num [times]
  · have hc : compare (1 / 2) (.tensor (scalar (7 * 100))) (.tensor (scalar (7 * 10))) = .error .values := by
      refine compare_values rfl ?_
      norm_num [scalar, passes, abs_of_pos]
    show ((compare (1 / 2) (.tensor (scalar (7 * 100))) (.tensor (scalar (7 * 10)))).bind fun _ => .ok (Res.tensor (scalar (7 * 100)), (7 : ℚ))) = _
    rw [hc]; rfl

/-- **C73 fails** for in-place methods: the reference is computed from the tensor that the method has already changed, so that `x.mul_(10)` is compared with `100 x` and raises for every `x` that
is not very small, although the result is exact. -/
theorem C73_inplace_wrong (x : ℚ) (hx : 1 / 1800 < x) (rg : Attr ℚ) :
    ∃ a, getInplace true false rg none (some (torchTimes 10)) (some (torchTimes 10)) (.method (times 10)) store = .ok a ∧ a.call true x = .error .values ∧
      (∃ b, getInplace false false rg none (some (torchTimes 10)) (some (torchTimes 10)) (.method (times 10)) store = .ok b ∧ b.call false x = .ok (.tensor (scalar (x * 10)), x * 10)) := by
  refine ⟨_, rfl, ?_, _, rfl, rfl⟩
  have hin : validated (1 / 2) (times 10) (torchTimes 10) false x = .ok (.tensor (scalar (x * 10)), x) := by
    refine C73_complete_partial (by norm_num) (times 10) (torchTimes 10) false x x (scalar (x * 10)) (scalar (x * 10)) rfl rfl rfl ⟨rfl, fun q hq => ?_⟩
    have : q = (x * 10, x * 10) := by simpa [scalar] using hq
    subst this; left; norm_num
  have hc : compare (1 / 2) (.tensor (scalar (x * 10))) (.tensor (scalar (x * 10 * 10))) = .error .values := by
    refine compare_values rfl ?_
    simp only [scalar, List.zip_cons_cons, List.zip_nil_right, List.all_cons, List.all_nil, Bool.and_true]
    rw [passes_iff (by norm_num)]
    have e1 : |x * 10 - x * 10 * 10| = 90 * x := by rw [show x * 10 - x * 10 * 10 = -(90 * x) by ring, abs_neg, abs_of_pos (by linarith)]
    rw [e1, abs_of_pos (by linarith : 0 < x * 10), abs_of_pos (by linarith : 0 < x * 10 * 10)]
    push Not
    constructor <;> linarith
  show ((validated (1 / 2) (times 10) (torchTimes 10) false x).bind _).bind _ = _
  rw [hin]
  show ((compare (1 / 2) (.tensor (scalar (x * 10))) (.tensor (scalar (x * 10 * 10)))).bind fun _ => .ok (Res.tensor (scalar (x * 10)), x * 10)) = _
  rw [hc]; rfl

/-- **C73 fails** for attributes that are no methods: with validation mode `x.requires_grad` is true whatever it was, because it is replaced by a function. -/
theorem C73_attribute_wrong (b : Bool) (torch : σ → Except Err Ref) : (getattr true (.value b : Attr σ) (some torch)).truthy = true ∧ (.value false : Attr σ).truthy = false := ⟨rfl, rfl⟩

/-- **C73 fails** for in-place methods while gradients are enabled (the default): every one raises, also on tensors that require no gradient. -/
theorem C73_inplace_autograd_wrong (b : Bool) (torchGrad : σ → Except Err Ref) (torchF torchFInplace : Option (σ → Except Err Ref)) (f : Attr σ) (store : Res → σ → σ) :
    getInplace true true (.value b) (some torchGrad) torchF torchFInplace f store = .error .inplaceAutograd ∧
      ∃ a, getInplace false true (.value false) (some torchGrad) torchF torchFInplace f store = .ok a := ⟨rfl, _, rfl⟩

/-- **C73 fails** for comparisons: torch returns a mask, which it does not subtract; the call raises whatever the result. -/
theorem C73_comparison_wrong (tolerance : ℚ) (func : Method σ) (torch : σ → Except Err Ref) (v : Bool) (s s' : σ) (p t : Plain)
    (hf : func false s = .ok (.tensor p, s')) (href : torch s' = .ok (.mask t)) : ∃ e, validated tolerance func torch v s = .error e := by
  unfold validated
  rw [hf]
  show ∃ e, ((torch s').bind fun ref => (compare tolerance (.tensor p) ref).bind fun _ => .ok (Res.tensor p, s')) = .error e
  rw [href]
  show ∃ e, ((if p.size ≠ t.size then Except.error Err.size else .error .maskSubtraction).bind fun _ => .ok (Res.tensor p, s')) = .error e
  split <;> exact ⟨_, rfl⟩

/-- **C73 (how much passes).** Of positive numbers, everything between a third and three times the right value passes. -/
theorem C73_tolerance (r t : ℚ) (ht : 0 < t) : passes (1 / 2) r t = true ↔ |r - t| ≤ 1 / 20 ∨ (t / 3 ≤ r ∧ r ≤ 3 * t) := by
  rw [passes_iff (by norm_num), abs_of_pos ht]
  have e : (1 : ℚ) / 2 / 10 = 1 / 20 := by norm_num
  rw [e]
  refine or_congr Iff.rfl ?_
  constructor
  · intro h
    have h1 := abs_le.1 h
    rcases le_total 0 r with hr | hr
    · rw [abs_of_nonneg hr] at h1
      constructor <;> linarith [h1.1, h1.2]
    · rw [abs_of_nonpos hr] at h1
      exfalso; linarith [h1.1]
  · rintro ⟨h1, h2⟩
    have hr : 0 ≤ r := by linarith
    rw [abs_of_nonneg hr, abs_le]
    constructor <;> linarith

/-! ## The check in div_ -/

variable {n : ℕ}

/-- **C73 (`div_`).** What passes the check is the result of the division, and its plaintext times the divisor is within 1 of the dividend's. -/
theorem C73_div_sound [NeZero n] (w : WrapPair n Unit) (x z : AST n Unit) (y : ℤ) (h : checkedDiv w x y = some z) :
    z.share = divInt w x.share (fun _ => y) ∧ z.scale = x.scale ∧
      ∃ a b, decode z.scale (reveal z.share ()) = some a ∧ decode x.scale (reveal x.share ()) = some b ∧ |a * y - b| < 1 := by
  unfold checkedDiv at h
  dsimp only at h
  split at h
  · rename_i hp
    cases h
    refine ⟨rfl, rfl, ?_⟩
    unfold divPasses at hp
    split at hp
    · rename_i b a hb ha
      exact ⟨a, b, ha, hb, of_decide_eq_true hp⟩
    · exact nomatch hp
  · exact nomatch h

/-- **C73 fails** for `div_`: a truncation that is one unit off, as two-party truncation may be (C14), raises: the dividend 131070 (about 2 with scale `2 ^ 16`), shared as
65535 + 65535 and divided by `2 ^ 16`, becomes 0 instead of 1. -/
theorem C73_div_wrong (w : WrapPair 2 Unit) :
    let x : AST 2 Unit := ⟨fun _ _ => 65535, 2 ^ 16⟩
    checkedDiv w x (2 ^ 16) = none ∧ |(reveal (divInt w x.share fun _ => 2 ^ 16) ()).toInt - (reveal x.share ()).toInt.tdiv (2 ^ 16)| ≤ 1 := by
  intro x
  have hx : reveal x.share () = 131070 := by rw [reveal_apply]; decide
  constructor
  · have hz : reveal (divInt w x.share fun _ => 2 ^ 16) () = 0 := by
      rw [divInt, if_neg (by decide), reveal_apply, Fin.sum_univ_two]
      decide
    unfold checkedDiv
    dsimp only
    rw [hx, hz, if_neg]
    rw [C06_decode_exact_partial (2 ^ 16) (by norm_num) (by norm_num) 131070 (by decide), C06_decode_exact_partial (2 ^ 16) (by norm_num) (by norm_num) 0 (by decide)]
    have h1 : (131070 : I64).toInt = 131070 := by decide
    have h2 : (0 : I64).toInt = 0 := by decide
    unfold divPasses
    rw [h1, h2]
    norm_num
  · exact C14_two_party_truncation w x.share (fun _ => 2 ^ 16) () (by norm_num) (by norm_num) (by rw [hx]; decide)

end CrypTen.Validation

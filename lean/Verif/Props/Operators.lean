import Verif.Model.Operators
import Mathlib.Algebra.Order.Ring.Rat
import Mathlib.Algebra.Field.Rat
import Mathlib.Tactic.Linarith
import Mathlib.Tactic.Ring

/-!
# Operators, comparisons and subscripts mean what they say (C88)
-/

namespace CrypTen.Operators

/-! ## Specification -/

section spec
variable {ι K : Type} [Field K] [LinearOrder K]

/-- The value of an expression, entry by entry, by ordinary arithmetic. -/
def Expr.denote (M : MatMul ι K) : Expr ι K → ι → K
  | .leaf v _ => v
  | .num c => fun _ => c
  | .plain v => v
  | .bin .add a b => fun i => a.denote M i + b.denote M i
  | .bin .sub a b => fun i => a.denote M i - b.denote M i
  | .bin .mul a b => fun i => a.denote M i * b.denote M i
  | .bin .div a b => fun i => a.denote M i / b.denote M i
  | .bin .matmul a b => M (a.denote M) (b.denote M)
  | .cmp .lt a b => fun i => if a.denote M i < b.denote M i then 1 else 0
  | .cmp .le a b => fun i => if a.denote M i ≤ b.denote M i then 1 else 0
  | .cmp .gt a b => fun i => if a.denote M i > b.denote M i then 1 else 0
  | .cmp .ge a b => fun i => if a.denote M i ≥ b.denote M i then 1 else 0
  | .cmp .eq a b => fun i => if a.denote M i = b.denote M i then 1 else 0
  | .cmp .ne a b => fun i => if a.denote M i ≠ b.denote M i then 1 else 0
  | .un .neg a => fun i => - a.denote M i
  | .un .abs a => fun i => |a.denote M i|
  | .pow a n => fun i => a.denote M i ^ n
  | .index a σ => fun i => a.denote M (σ i)

end spec

section spec2
variable {ι K : Type}

/-- Whether an expression involves an encrypted tensor. -/
def Expr.encrypted : Expr ι K → Bool
  | .leaf _ _ => true
  | .num _ => false
  | .plain _ => false
  | .bin _ a b => a.encrypted || b.encrypted
  | .cmp _ a b => a.encrypted || b.encrypted
  | .un _ a => a.encrypted
  | .pow a _ => a.encrypted
  | .index a _ => a.encrypted

/-- Whether it is a Python number: made of numbers only. -/
def Expr.number : Expr ι K → Bool
  | .leaf _ _ => false
  | .num _ => true
  | .plain _ => false
  | .bin _ a b => a.number && b.number
  | .cmp _ a b => a.number && b.number
  | .un _ a => a.number
  | .pow a _ => a.number
  | .index a _ => a.number

/-- Whether the value depends differentiably on a tensor that requires a gradient (a comparison is a step function and passes no gradient on). -/
def Expr.differentiable : Expr ι K → Bool
  | .leaf _ r => r
  | .num _ => false
  | .plain _ => false
  | .bin _ a b => a.differentiable || b.differentiable
  | .cmp _ _ _ => false
  | .un _ a => a.differentiable
  | .pow a _ => a.differentiable
  | .index a _ => a.differentiable

/-- No subscript occurs in the expression, other than inside comparisons. -/
def Expr.noSubscript : Expr ι K → Bool
  | .leaf _ _ => true
  | .num _ => true
  | .plain _ => true
  | .bin _ a b => a.noSubscript && b.noSubscript
  | .cmp _ _ _ => true
  | .un _ a => a.noSubscript
  | .pow a _ => a.noSubscript
  | .index _ _ => false

/-- The expressions that have a meaning in Python with torch tensors in the place of encrypted ones: a number has no subscripts and takes no part in a matrix product. -/
def Expr.meaningful : Expr ι K → Bool
  | .leaf _ _ => true
  | .num _ => true
  | .plain _ => true
  | .bin op a b => a.meaningful && b.meaningful && (op != .matmul || (!a.number && !b.number))
  | .cmp _ a b => a.meaningful && b.meaningful
  | .un _ a => a.meaningful
  | .pow a _ => a.meaningful
  | .index a _ => a.meaningful && !a.number

/-- The uses that CrypTen refuses: a power of an encrypted tensor, a number divided by an encrypted tensor, and any operator with a plain torch tensor on the left and an encrypted one
on the right. -/
def Expr.refused : Expr ι K → Bool
  | .leaf _ _ => false
  | .num _ => false
  | .plain _ => false
  | .bin op a b => a.refused || b.refused || (!a.encrypted && b.encrypted && (!a.number || op == .div))
  | .cmp _ a b => a.refused || b.refused || (!a.encrypted && b.encrypted && !a.number)
  | .un _ a => a.refused
  | .pow a _ => a.refused || a.encrypted
  | .index a _ => a.refused

end spec2

/-! ## Single operators -/

section ops
variable {ι K : Type} [Field K] [LinearOrder K] [IsStrictOrderedRing K]

omit [IsStrictOrderedRing K] in
private theorem lookups (op : Bin) : classAttr.lookup op.special = some (.named (match op with | .add => "add" | .sub => "sub" | .mul => "mul" | .div => "div" | .matmul => "matmul")) := by
  cases op <;> rfl

omit [IsStrictOrderedRing K] in
private theorem lookupc (c : Cmp) : classAttr.lookup c.special = some (.compare c) := by
  cases c <;> rfl

private theorem compareBody_eq (c : Cmp) (a b : K) : compareBody c a b = c.eval a b := by
  rcases lt_trichotomy a b with h | h | h
  · have h1 : a - b < 0 := sub_neg.mpr h
    have h2 : ¬ (-a + b < 0) := by intro h'; linarith
    have h3 : ¬ (-(a - b) < 0) := by intro h'; linarith
    have h4 : ¬ b < a := not_lt.mpr h.le
    cases c <;> simp [compareBody, ltz, Cmp.eval, h, h1, h2, h4, h.ne]
  · subst h
    cases c <;> simp [compareBody, ltz, Cmp.eval]
  · have h1 : ¬ (a - b < 0) := by intro h'; linarith
    have h2 : -a + b < 0 := by linarith
    have h3 : -(a - b) < 0 := by linarith
    have h4 : ¬ a < b := not_lt.mpr h.le
    cases c <;> simp [compareBody, ltz, Cmp.eval, h, h1, h2, h4, h.ne']

omit [IsStrictOrderedRing K] [Field K] in
private theorem mirror_eval [Field K] (c : Cmp) (a b : K) : c.mirror.eval b a = c.eval a b := by
  cases c <;> simp [Cmp.mirror, Cmp.eval, eq_comm]

omit [IsStrictOrderedRing K] in
private theorem binary_value (M : MatMul ι K) (enabled : Bool) (op : Bin) (l r v : Val ι K) (h : binary M enabled op l r = .ok v) :
    v.value = plainBin M op l.value r.value ∧ v.isEnc = (l.isEnc || r.isEnc) := by
  cases l with
  | enc a t =>
    cases op <;> cases r <;> simp [binary, lookups, runBody] at h <;> subst h <;> exact ⟨rfl, rfl⟩
  | num c =>
    cases r with
    | enc b t =>
      cases op <;> simp [binary, Bin.reflected, classAttr, List.lookup, runBody] at h <;> subst h <;> refine ⟨?_, rfl⟩ <;> funext i <;>
        simp [callMethod, methodValue, Val.value, plainBin] <;> ring
    | num d => cases op <;> simp [binary] at h <;> subst h <;> exact ⟨rfl, rfl⟩
    | plain b => cases op <;> simp [binary] at h <;> subst h <;> exact ⟨rfl, rfl⟩
  | plain a =>
    cases r with
    | enc b t => simp [binary] at h
    | num d => cases op <;> simp [binary] at h <;> subst h <;> exact ⟨rfl, rfl⟩
    | plain b => cases op <;> simp [binary] at h <;> subst h <;> exact ⟨rfl, rfl⟩

private theorem compare_value (M : MatMul ι K) (enabled : Bool) (c : Cmp) (l r v : Val ι K) (h : compare M enabled c l r = .ok v) :
    v.value = (fun i => c.eval (l.value i) (r.value i)) ∧ v.isEnc = (l.isEnc || r.isEnc) := by
  cases l with
  | enc a t =>
    simp only [compare, lookupc, runBody, Except.ok.injEq] at h
    subst h
    exact ⟨funext fun i => compareBody_eq c _ _, rfl⟩
  | num d =>
    cases r with
    | enc b t =>
      simp only [compare, lookupc, runBody, Except.ok.injEq] at h
      subst h
      exact ⟨funext fun i => (compareBody_eq _ _ _).trans (mirror_eval c _ _), rfl⟩
    | num e => simp [compare] at h; subst h; exact ⟨rfl, rfl⟩
    | plain b => simp [compare] at h; subst h; exact ⟨rfl, rfl⟩
  | plain a =>
    cases r with
    | enc b t => simp [compare] at h
    | num e => simp [compare] at h; subst h; exact ⟨rfl, rfl⟩
    | plain b => simp [compare] at h; subst h; exact ⟨rfl, rfl⟩

private theorem unary_value (M : MatMul ι K) (enabled : Bool) (u : Un) (l v : Val ι K) (h : unary M enabled u l = .ok v) :
    v.value = (fun i => match u with | .neg => - l.value i | .abs => |l.value i|) ∧ v.isEnc = l.isEnc := by
  have ha : ∀ x : K, (if x < 0 then -x else x) = |x| := by
    intro x
    split
    · exact (abs_of_neg ‹_›).symm
    · exact (abs_of_nonneg (not_lt.mp ‹_›)).symm
  cases l with
  | enc a t => cases u <;> simp [unary, classAttr, List.lookup, runBody] at h <;> subst h <;> refine ⟨?_, rfl⟩ <;> funext i <;> simp only [callMethod, methodValue, Val.value] <;> first | rfl | exact ha _
  | num c => cases u <;> simp [unary, ha] at h <;> subst h <;> exact ⟨rfl, rfl⟩
  | plain a => cases u <;> simp [unary, ha] at h <;> subst h <;> exact ⟨rfl, rfl⟩

omit [LinearOrder K] [IsStrictOrderedRing K] in
private theorem power_value (n : ℕ) (l v : Val ι K) (h : power n l = .ok v) : v.value = (fun i => l.value i ^ n) ∧ v.isEnc = l.isEnc := by
  cases l with
  | enc a t => simp [power, classAttr, List.lookup] at h
  | num c => simp [power] at h; subst h; exact ⟨rfl, rfl⟩
  | plain a => simp [power] at h; subst h; exact ⟨rfl, rfl⟩

omit [Field K] [LinearOrder K] [IsStrictOrderedRing K] in
private theorem subscript_value (σ : ι → ι) (l v : Val ι K) (h : subscript σ l = .ok v) : v.value = (fun i => l.value (σ i)) ∧ v.isEnc = l.isEnc := by
  cases l with
  | enc a t => simp [subscript, classAttr, List.lookup] at h; subst h; exact ⟨rfl, rfl⟩
  | num c => simp [subscript] at h
  | plain a => simp [subscript] at h; subst h; exact ⟨rfl, rfl⟩

omit [Field K] [LinearOrder K] [IsStrictOrderedRing K] in
private theorem bind_ok {α β : Type} {x : Except Err α} {f : α → Except Err β} {b : β} (h : (x >>= f) = .ok b) : ∃ a, x = .ok a ∧ f a = .ok b := by
  cases x with
  | error e => cases h
  | ok a => exact ⟨a, rfl, h⟩

/-- **C88**: whatever expression of operators, comparisons and subscripts a user writes over encrypted tensors, numbers and plain tensors, with gradients recorded or not, if it
evaluates then its value is the one ordinary arithmetic gives, and it is encrypted exactly if an encrypted tensor occurs in it. -/
theorem C88_value (M : MatMul ι K) (enabled : Bool) (e : Expr ι K) : ∀ v, eval M enabled e = .ok v → v.value = e.denote M ∧ v.isEnc = e.encrypted := by
  induction e with
  | leaf a r => intro v h; cases h; exact ⟨rfl, rfl⟩
  | num c => intro v h; cases h; exact ⟨rfl, rfl⟩
  | plain a => intro v h; cases h; exact ⟨rfl, rfl⟩
  | bin op a b iha ihb =>
    intro v h
    obtain ⟨x, hx, h⟩ := bind_ok h
    obtain ⟨y, hy, h⟩ := bind_ok h
    obtain ⟨h1, h2⟩ := binary_value M enabled op x y v h
    obtain ⟨ha1, ha2⟩ := iha x hx
    obtain ⟨hb1, hb2⟩ := ihb y hy
    rw [h1, h2, ha1, ha2, hb1, hb2]
    cases op <;> exact ⟨rfl, rfl⟩
  | cmp c a b iha ihb =>
    intro v h
    obtain ⟨x, hx, h⟩ := bind_ok h
    obtain ⟨y, hy, h⟩ := bind_ok h
    obtain ⟨h1, h2⟩ := compare_value M enabled c x y v h
    obtain ⟨ha1, ha2⟩ := iha x hx
    obtain ⟨hb1, hb2⟩ := ihb y hy
    rw [h1, h2, ha1, ha2, hb1, hb2]
    refine ⟨funext fun i => ?_, rfl⟩
    cases c <;> simp [Cmp.eval, Expr.denote, le_iff_lt_or_eq, eq_comm]
  | un u a iha =>
    intro v h
    obtain ⟨x, hx, h⟩ := bind_ok h
    obtain ⟨h1, h2⟩ := unary_value M enabled u x v h
    obtain ⟨ha1, ha2⟩ := iha x hx
    rw [h1, h2, ha1, ha2]
    cases u <;> exact ⟨rfl, rfl⟩
  | pow a n iha =>
    intro v h
    obtain ⟨x, hx, h⟩ := bind_ok h
    obtain ⟨h1, h2⟩ := power_value n x v h
    obtain ⟨ha1, ha2⟩ := iha x hx
    rw [h1, h2, ha1, ha2]
    exact ⟨rfl, rfl⟩
  | index a σ iha =>
    intro v h
    obtain ⟨x, hx, h⟩ := bind_ok h
    obtain ⟨h1, h2⟩ := subscript_value σ x v h
    obtain ⟨ha1, ha2⟩ := iha x hx
    rw [h1, h2, ha1, ha2]
    exact ⟨rfl, rfl⟩

/-! ## Which expressions are refused -/

omit [Field K] [LinearOrder K] [IsStrictOrderedRing K] in
private theorem number_not_encrypted (e : Expr ι K) : e.number = true → e.encrypted = false := by
  induction e <;> simp_all [Expr.number, Expr.encrypted]

/-- The kind of a result: encrypted, number, plain. -/
private def kind : Val ι K → Bool × Bool
  | .enc _ _ => (true, false)
  | .num _ => (false, true)
  | .plain _ => (false, false)

omit [IsStrictOrderedRing K] in
private theorem binary_kind (M : MatMul ι K) (enabled : Bool) (op : Bin) (l r : Val ι K) :
    (∃ v, binary M enabled op l r = .ok v ∧ kind v = ((kind l).1 || (kind r).1, (kind l).2 && (kind r).2)) ∧
      ((op != .matmul || (!(kind l).2 && !(kind r).2)) && !(!(kind l).1 && (kind r).1 && (!(kind l).2 || op == .div))) = true ∨
    (∃ err, binary M enabled op l r = .error err) ∧
      ((op != .matmul || (!(kind l).2 && !(kind r).2)) && !(!(kind l).1 && (kind r).1 && (!(kind l).2 || op == .div))) = false := by
  cases l <;> cases r <;> cases op <;> simp [binary, Bin.special, Bin.reflected, classAttr, List.lookup, runBody, callMethod, kind]

omit [IsStrictOrderedRing K] in
private theorem compare_kind (M : MatMul ι K) (enabled : Bool) (c : Cmp) (l r : Val ι K) :
    (∃ v, compare M enabled c l r = .ok v ∧ kind v = ((kind l).1 || (kind r).1, (kind l).2 && (kind r).2)) ∧ (!(kind l).1 && (kind r).1 && !(kind l).2) = false ∨
    (∃ err, compare M enabled c l r = .error err) ∧ (!(kind l).1 && (kind r).1 && !(kind l).2) = true := by
  cases l <;> cases r <;> cases c <;> simp [compare, Cmp.special, Cmp.mirror, classAttr, List.lookup, runBody, kind]

omit [IsStrictOrderedRing K] in
private theorem unary_kind (M : MatMul ι K) (enabled : Bool) (u : Un) (l : Val ι K) : ∃ v, unary M enabled u l = .ok v ∧ kind v = kind l := by
  cases l <;> cases u <;> simp [unary, classAttr, List.lookup, runBody, kind, callMethod]

omit [IsStrictOrderedRing K] in
private theorem evaluates (M : MatMul ι K) (enabled : Bool) (e : Expr ι K) :
    (∃ v, eval M enabled e = .ok v ∧ kind v = (e.encrypted, e.number)) ∧ (e.meaningful && !e.refused) = true ∨
    (∃ err, eval M enabled e = .error err) ∧ (e.meaningful && !e.refused) = false := by
  induction e with
  | leaf a r => exact .inl ⟨⟨_, rfl, rfl⟩, rfl⟩
  | num c => exact .inl ⟨⟨_, rfl, rfl⟩, rfl⟩
  | plain a => exact .inl ⟨⟨_, rfl, rfl⟩, rfl⟩
  | bin op a b iha ihb =>
    rcases iha with ⟨⟨x, hx, kx⟩, ha⟩ | ⟨⟨err, hx⟩, ha⟩
    · rcases ihb with ⟨⟨y, hy, ky⟩, hb⟩ | ⟨⟨err, hy⟩, hb⟩
      · have h := binary_kind M enabled op x y
        rw [kx, ky] at h
        simp only [Bool.and_eq_true, Bool.not_eq_true'] at ha hb
        rcases h with ⟨⟨v, hv, kv⟩, h⟩ | ⟨⟨err, hv⟩, h⟩
        · refine .inl ⟨⟨v, by simp only [eval, hx, hy]; exact hv, kv⟩, ?_⟩
          simp only [Expr.meaningful, Expr.refused, ha, hb]
          simpa using h
        · refine .inr ⟨⟨err, by simp only [eval, hx, hy]; exact hv⟩, ?_⟩
          simp only [Expr.meaningful, Expr.refused, ha, hb]
          simpa using h
      · refine .inr ⟨⟨err, by simp only [eval, hx, hy]; rfl⟩, ?_⟩
        simp only [Expr.meaningful, Expr.refused]
        revert hb
        cases b.meaningful <;> cases b.refused <;> simp
    · refine .inr ⟨⟨err, by simp only [eval, hx]; rfl⟩, ?_⟩
      simp only [Expr.meaningful, Expr.refused]
      revert ha
      cases a.meaningful <;> cases a.refused <;> simp
  | cmp c a b iha ihb =>
    rcases iha with ⟨⟨x, hx, kx⟩, ha⟩ | ⟨⟨err, hx⟩, ha⟩
    · rcases ihb with ⟨⟨y, hy, ky⟩, hb⟩ | ⟨⟨err, hy⟩, hb⟩
      · have h := compare_kind M enabled c x y
        rw [kx, ky] at h
        simp only [Bool.and_eq_true, Bool.not_eq_true'] at ha hb
        rcases h with ⟨⟨v, hv, kv⟩, h⟩ | ⟨⟨err, hv⟩, h⟩
        · refine .inl ⟨⟨v, by simp only [eval, hx, hy]; exact hv, kv⟩, ?_⟩
          simp only [Expr.meaningful, Expr.refused, ha, hb]
          revert h
          cases a.encrypted <;> cases b.encrypted <;> cases a.number <;> simp
        · refine .inr ⟨⟨err, by simp only [eval, hx, hy]; exact hv⟩, ?_⟩
          simp only [Expr.meaningful, Expr.refused, ha, hb]
          revert h
          cases a.encrypted <;> cases b.encrypted <;> cases a.number <;> simp
      · refine .inr ⟨⟨err, by simp only [eval, hx, hy]; rfl⟩, ?_⟩
        simp only [Expr.meaningful, Expr.refused]
        revert hb
        cases b.meaningful <;> cases b.refused <;> simp
    · refine .inr ⟨⟨err, by simp only [eval, hx]; rfl⟩, ?_⟩
      simp only [Expr.meaningful, Expr.refused]
      revert ha
      cases a.meaningful <;> cases a.refused <;> simp
  | un u a iha =>
    rcases iha with ⟨⟨x, hx, kx⟩, ha⟩ | ⟨⟨err, hx⟩, ha⟩
    · obtain ⟨v, hv, kv⟩ := unary_kind M enabled u x
      exact .inl ⟨⟨v, by simp only [eval, hx]; exact hv, kv.trans kx⟩, ha⟩
    · exact .inr ⟨⟨err, by simp only [eval, hx]; rfl⟩, ha⟩
  | pow a n iha =>
    rcases iha with ⟨⟨x, hx, kx⟩, ha⟩ | ⟨⟨err, hx⟩, ha⟩
    · simp only [Bool.and_eq_true, Bool.not_eq_true'] at ha
      cases x with
      | enc v t =>
        simp only [kind, Prod.mk.injEq] at kx
        refine .inr ⟨⟨.typeError, by simp only [eval, hx]; rfl⟩, ?_⟩
        simp [Expr.refused, ← kx.1]
      | num d =>
        refine .inl ⟨⟨.num (d ^ n), by simp only [eval, hx]; rfl, kx⟩, ?_⟩
        simp only [kind, Prod.mk.injEq] at kx
        simp [Expr.refused, Expr.meaningful, ← kx.1, ha]
      | plain v =>
        refine .inl ⟨⟨.plain fun i => v i ^ n, by simp only [eval, hx]; rfl, kx⟩, ?_⟩
        simp only [kind, Prod.mk.injEq] at kx
        simp [Expr.refused, Expr.meaningful, ← kx.1, ha]
    · refine .inr ⟨⟨err, by simp only [eval, hx]; rfl⟩, ?_⟩
      simp only [Expr.meaningful, Expr.refused]
      revert ha
      cases a.meaningful <;> cases a.refused <;> simp
  | index a σ iha =>
    rcases iha with ⟨⟨x, hx, kx⟩, ha⟩ | ⟨⟨err, hx⟩, ha⟩
    · simp only [Bool.and_eq_true, Bool.not_eq_true'] at ha
      cases x with
      | enc v t =>
        refine .inl ⟨⟨.enc (fun i => v (σ i)) false, by simp only [eval, hx]; rfl, kx⟩, ?_⟩
        simp only [kind, Prod.mk.injEq] at kx
        simp [Expr.refused, Expr.meaningful, ← kx.2, ha]
      | num d =>
        simp only [kind, Prod.mk.injEq] at kx
        refine .inr ⟨⟨.typeError, by simp only [eval, hx]; rfl⟩, ?_⟩
        simp [Expr.meaningful, ← kx.2]
      | plain v =>
        refine .inl ⟨⟨.plain fun i => v (σ i), by simp only [eval, hx]; rfl, kx⟩, ?_⟩
        simp only [kind, Prod.mk.injEq] at kx
        simp [Expr.refused, Expr.meaningful, ← kx.2, ha]
    · refine .inr ⟨⟨err, by simp only [eval, hx]; rfl⟩, ?_⟩
      simp only [Expr.meaningful, Expr.refused]
      revert ha
      cases a.meaningful <;> cases a.refused <;> simp

omit [IsStrictOrderedRing K] in
/-- **C88**, partial: an expression that makes sense evaluates, unless it uses a power of an encrypted tensor, divides a number by an encrypted tensor, or has a plain tensor to the
left of an encrypted one. Missing: those three, which raise exceptions (`C88_pow_wrong`, `C88_rtruediv_wrong`, `C88_plain_left_wrong`). -/
theorem C88_evaluates_partial (M : MatMul ι K) (enabled : Bool) (e : Expr ι K) (hm : e.meaningful = true) :
    (∃ v, eval M enabled e = .ok v) ↔ e.refused = false := by
  rcases evaluates M enabled e with ⟨⟨v, hv, _⟩, h⟩ | ⟨⟨err, hv⟩, h⟩
  · simp only [hm, Bool.true_and, Bool.not_eq_true'] at h
    exact ⟨fun _ => h, fun _ => ⟨v, hv⟩⟩
  · simp only [hm, Bool.true_and, Bool.not_eq_false'] at h
    constructor
    · rintro ⟨v, hv'⟩
      rw [hv] at hv'
      cases hv'
    · intro h'
      rw [h] at h'
      cases h'

omit [IsStrictOrderedRing K] in
/-- **C88** fails for powers: `e ** n` raises `TypeError` for every encrypted expression, while the method call `e.pow(n)` is offered (and `__pow__` is in the table
`PYTHON_BUILTIN`). -/
theorem C88_pow_wrong (M : MatMul ι K) (enabled : Bool) (e : Expr ι K) (n : ℕ) (v : ι → K) (t : Bool) (h : eval M enabled e = .ok (.enc v t)) :
    eval M enabled (.pow e n) = .error .typeError := by
  simp only [eval, h]; rfl

omit [IsStrictOrderedRing K] in
/-- **C88** fails for reciprocals: `c / e` raises `TypeError` for every number and every encrypted expression. -/
theorem C88_rtruediv_wrong (M : MatMul ι K) (enabled : Bool) (c : K) (e : Expr ι K) (v : ι → K) (t : Bool) (h : eval M enabled e = .ok (.enc v t)) :
    eval M enabled (.bin .div (.num c) e) = .error .typeError := by
  simp only [eval, h]; rfl

omit [IsStrictOrderedRing K] in
/-- **C88** fails with a plain tensor on the left: `p + e` raises `NotImplementedError`, although `e + p` works. -/
theorem C88_plain_left_wrong (M : MatMul ι K) (enabled : Bool) (op : Bin) (p : ι → K) (e : Expr ι K) (v : ι → K) (t : Bool) (h : eval M enabled e = .ok (.enc v t)) :
    eval M enabled (.bin op (.plain p) e) = .error .notImplementedError ∧ ∃ w, eval M enabled (.bin op e (.plain p)) = .ok w := by
  refine ⟨by simp only [eval, h]; rfl, ?_⟩
  cases op <;> exact ⟨_, by simp only [eval, h]; rfl⟩

/-! ## Gradients -/

omit [IsStrictOrderedRing K] in
private theorem binary_tracked (M : MatMul ι K) (op : Bin) (l r v : Val ι K) (h : binary M true op l r = .ok v) : v.tracked = (l.tracked || r.tracked) := by
  cases l <;> cases r <;> cases op <;> simp [binary, Bin.special, Bin.reflected, classAttr, List.lookup, runBody, callMethod] at h <;> subst h <;>
    simp [Val.tracked, Recording.registry]

omit [IsStrictOrderedRing K] in
private theorem compare_tracked (M : MatMul ι K) (enabled : Bool) (c : Cmp) (l r v : Val ι K) (h : compare M enabled c l r = .ok v) : v.tracked = false := by
  cases l <;> cases r <;> cases c <;> simp [compare, Cmp.special, Cmp.mirror, classAttr, List.lookup, runBody] at h <;> subst h <;> rfl

omit [IsStrictOrderedRing K] in
private theorem unary_tracked (M : MatMul ι K) (u : Un) (l v : Val ι K) (h : unary M true u l = .ok v) : v.tracked = l.tracked := by
  cases l <;> cases u <;> simp [unary, classAttr, List.lookup, runBody, callMethod] at h <;> subst h <;> simp [Val.tracked, Recording.registry]

omit [IsStrictOrderedRing K] in
/-- **C88**, partial: with gradients enabled, the result of an expression without subscripts requires a gradient exactly if it depends differentiably on a tensor that does. Missing:
subscripts, whose results never require a gradient (`C88_subscript_wrong`). -/
theorem C88_recorded_partial (M : MatMul ι K) (e : Expr ι K) : e.noSubscript = true → ∀ v, eval M true e = .ok v → v.tracked = e.differentiable := by
  induction e with
  | leaf a r => intro _ v h; cases h; rfl
  | num c => intro _ v h; cases h; rfl
  | plain a => intro _ v h; cases h; rfl
  | bin op a b iha ihb =>
    intro hn v h
    obtain ⟨x, hx, h⟩ := bind_ok h
    obtain ⟨y, hy, h⟩ := bind_ok h
    simp only [Expr.noSubscript, Bool.and_eq_true] at hn
    rw [binary_tracked M op x y v h, iha hn.1 x hx, ihb hn.2 y hy]
    rfl
  | cmp c a b iha ihb =>
    intro _ v h
    obtain ⟨x, hx, h⟩ := bind_ok h
    obtain ⟨y, hy, h⟩ := bind_ok h
    exact compare_tracked M true c x y v h
  | un u a iha =>
    intro hn v h
    obtain ⟨x, hx, h⟩ := bind_ok h
    rw [unary_tracked M u x v h, iha hn x hx]
    rfl
  | pow a n iha =>
    intro hn v h
    obtain ⟨x, hx, h⟩ := bind_ok h
    rw [Expr.differentiable, ← iha hn x hx]
    cases x with
    | enc => simp [power, classAttr, List.lookup] at h
    | num => simp [power] at h; subst h; rfl
    | plain => simp [power] at h; subst h; rfl
  | index a σ iha => intro hn; cases hn

omit [IsStrictOrderedRing K] in
/-- **C88** fails for subscripts: `e[i]` has the right entries but does not require a gradient, for any expression `e` and whether or not `e` requires one: the gradient is lost
without an exception. The method call `e.__getitem__(i)` has the same entries and is recorded. -/
theorem C88_subscript_wrong (M : MatMul ι K) (e : Expr ι K) (σ : ι → ι) (v : ι → K) (t : Bool) (h : eval M true e = .ok (.enc v t)) :
    eval M true (.index e σ) = .ok (.enc (fun i => v (σ i)) false) ∧ callGetitem true σ (.enc v t) = .enc (fun i => v (σ i)) t := by
  refine ⟨by simp only [eval, h]; rfl, ?_⟩
  simp [callGetitem, Recording.registry, Val.tracked, Val.value]

omit [IsStrictOrderedRing K] in
/-- With gradients disabled no operator gives a result that requires a gradient. -/
theorem C88_no_grad (M : MatMul ι K) (e : Expr ι K) (hl : ∀ a r, e ≠ .leaf a r) (v : Val ι K) (h : eval M false e = .ok v) : v.tracked = false := by
  cases e with
  | leaf a r => exact absurd rfl (hl a r)
  | num c => cases h; rfl
  | plain a => cases h; rfl
  | bin op a b =>
    obtain ⟨x, _, h⟩ := bind_ok h
    obtain ⟨y, _, h⟩ := bind_ok h
    cases x <;> cases y <;> cases op <;> simp [binary, Bin.special, Bin.reflected, classAttr, List.lookup, runBody, callMethod] at h <;> subst h <;> simp [Val.tracked]
  | cmp c a b =>
    obtain ⟨x, _, h⟩ := bind_ok h
    obtain ⟨y, _, h⟩ := bind_ok h
    exact compare_tracked M false c x y v h
  | un u a =>
    obtain ⟨x, _, h⟩ := bind_ok h
    cases x <;> cases u <;> simp [unary, classAttr, List.lookup, runBody, callMethod] at h <;> subst h <;> simp [Val.tracked]
  | pow a n =>
    obtain ⟨x, _, h⟩ := bind_ok h
    cases x <;> simp [power, classAttr, List.lookup] at h <;> subst h <;> rfl
  | index a σ =>
    obtain ⟨x, _, h⟩ := bind_ok h
    cases x <;> simp [subscript, classAttr, List.lookup] at h <;> subst h <;> rfl

/-! ## Augmented assignment -/

/-- The value that an operator gives. -/
def Bin.apply (M : MatMul ι K) (op : Bin) (l r : ι → K) : ι → K := (Expr.bin op (.plain l) (.plain r)).denote M

omit [IsStrictOrderedRing K] in
/-- **C88**: `x += e`, `x -= e`, `x *= e` and `x /= e` on an encrypted tensor that requires no gradient (or with gradients disabled) give every variable bound to the same object the
new value, keep all variables bound to the objects they were bound to, and leave the other objects as they were. -/
theorem C88_augmented (M : MatMul ι K) (enabled : Bool) (s : State ι K) (x : String) (op : Bin) (hop : op ≠ .matmul) (r : Val ι K) (v : ι → K) (t : Bool)
    (hb : s.env x < s.objects.length) (hx : s.get x = .enc v t) (hg : (enabled && t) = false) :
    ∃ s', augmented M enabled s x op r = .ok s' ∧ (∀ y, s.env y = s.env x → s'.get y = .enc (op.apply M v r.value) t) ∧
      (∀ y, s.env y ≠ s.env x → s'.get y = s.get y) ∧ (∀ y z, s'.env y = s'.env z ↔ s.env y = s.env z) := by
  have key : augmented M enabled s x op r = .ok { s with objects := s.objects.set (s.env x) (.enc (op.apply M v r.value) t) } := by
    simp only [augmented, hx]
    cases op <;> simp [Bin.inPlace, classAttr, List.lookup, hg, Bin.apply, callMethod, methodValue, Val.value, Expr.denote] at hop ⊢
  refine ⟨_, key, ?_, ?_, fun y z => Iff.rfl⟩
  · intro y hy
    simp [State.get, hy, hb]
  · intro y hy
    simp [State.get, Ne.symm hy]

omit [IsStrictOrderedRing K] in
/-- **C88**: on an encrypted tensor that requires a gradient, with gradients enabled, these assignments raise `RuntimeError`, whatever the right-hand side. -/
theorem C88_augmented_raises (M : MatMul ι K) (s : State ι K) (x : String) (op : Bin) (hop : op ≠ .matmul) (r : Val ι K) (v : ι → K) (hx : s.get x = .enc v true) :
    augmented M true s x op r = .error .runtimeError := by
  simp only [augmented, hx]
  cases op <;> simp [Bin.inPlace, classAttr, List.lookup] at hop ⊢

omit [IsStrictOrderedRing K] in
/-- **C88**: `x @= e` binds `x` to a new object, recorded if an operand requires a gradient; all other variables keep object and value. The same for a number on the left: `c += e`. -/
theorem C88_augmented_new (M : MatMul ι K) (s : State ι K) (x : String) (op : Bin) (r w : Val ι K) (hb : ∀ y, s.env y < s.objects.length)
    (hx : (op = .matmul ∧ (s.get x).isEnc = true) ∨ ∃ c, s.get x = .num c) (hw : binary M true op (s.get x) r = .ok w) :
    ∃ s', augmented M true s x op r = .ok s' ∧ s'.get x = w ∧ (∀ y, y ≠ x → s'.get y = s.get y ∧ s'.env y ≠ s'.env x) := by
  have key : augmented M true s x op r = .ok (s.bindNew x w) := by
    rcases hx with ⟨rfl, he⟩ | ⟨c, hc⟩
    · cases hg : s.get x with
      | enc v t =>
        rw [hg] at hw
        have hl : classAttr.lookup Bin.matmul.inPlace = classAttr.lookup Bin.matmul.special := rfl
        simp only [binary, lookups] at hw
        simp only [augmented, hg, hl, lookups, hw]
        rfl
      | num c => rw [hg] at he; cases he
      | plain v => rw [hg] at he; cases he
    · rw [hc] at hw
      simp only [augmented, hc, hw]
      rfl
  refine ⟨_, key, ?_, ?_⟩
  · simp [State.bindNew, State.get]
  · intro y hy
    have hby := hb y
    constructor
    · simp [State.bindNew, State.get, hy, List.getElem?_append, hby]
    · simp only [State.bindNew, hy, if_false, if_true]
      omega

end ops

/-! ## Concrete cases -/

/-- `x` requires a gradient: `(2 - x) * x / 3 - abs(-x) * (x < 4)`, entry by entry over two entries 1 and 5. -/
private def demo : Expr Bool ℚ :=
  let x : Expr Bool ℚ := .leaf (fun b => if b then 1 else 5) true
  .bin .sub (.bin .div (.bin .mul (.bin .sub (.num 2) x) x) (.num 3)) (.bin .mul (.un .abs (.un .neg x)) (.cmp .lt x (.num 4)))

private def noMat : MatMul Bool ℚ := fun a _ => a

/-- It makes sense, is not refused and has no subscript; so it evaluates, to -2/3 and -5, encrypted and recorded. -/
example : demo.meaningful = true ∧ demo.refused = false ∧ demo.noSubscript = true := by decide

example : ∃ v, eval noMat true demo = .ok v ∧ v.value true = -2 / 3 ∧ v.value false = -5 ∧ v.isEnc = true ∧ v.tracked = true := by
  obtain ⟨v, hv⟩ := (C88_evaluates_partial noMat true demo (by decide)).mpr (by decide)
  obtain ⟨h1, h2⟩ := C88_value noMat true demo v hv
  refine ⟨v, hv, ?_, ?_, h2, C88_recorded_partial noMat demo (by decide) v hv⟩
  · rw [h1]; norm_num [demo, Expr.denote]
  · rw [h1]; norm_num [demo, Expr.denote]

/-- The subscript of a tensor that requires a gradient; the hypothesis of the theorems on single operators. -/
example : eval noMat true (.leaf (fun b => if b then 1 else 5) true) = .ok (.enc (fun b => if b then 1 else 5) true) := rfl

/-- Two variables bound to one encrypted tensor and a third bound to another: the hypotheses of `C88_augmented`. -/
example : let s : State Bool ℚ := ⟨fun y => if y = "z" then 1 else 0, [.enc (fun _ => 1) false, .enc (fun _ => 7) true]⟩
    s.env "x" < s.objects.length ∧ s.get "x" = .enc (fun _ => 1) false ∧ s.env "y" = s.env "x" ∧ s.env "z" ≠ s.env "x" ∧ s.get "z" = .enc (fun _ => 7) true := by
  refine ⟨by decide, rfl, rfl, by decide, rfl⟩

end CrypTen.Operators

import Verif.Model.ArithFunc
import Verif.Model.Encoder

/-!
# Validation mode

Models `register_validation` (/repo/crypten/debug/__init__.py:21-34), `validate_correctness` (/repo/crypten/debug/debug.py:90-144), the access to attributes of an encrypted
tensor under it (/repo/crypten/cryptensor.py:367-406) and the check in `div_` (/repo/crypten/mpc/primitives/arithmetic.py:454-473). A method is a function of the state `σ` of all tensors (the tensor itself and the arguments);
the method of the same name of a torch tensor is a function of the plaintexts in that state. Plain numbers are exact (the rounding of torch's floats is not modelled).
-/

namespace CrypTen.Validation
variable {σ : Type}

/-- A plain tensor. -/
structure Plain where
  size : List ℕ
  data : List ℚ
deriving DecidableEq

/-- What an encrypted method returns, after `get_plain_text`: a tensor or something else. -/
inductive Res where
  | tensor (p : Plain)
  | other
deriving DecidableEq

/-- What the method of the torch tensor returns: numbers, a mask, or something that is not a tensor. -/
inductive Ref where
  | tensor (p : Plain)
  | mask (p : Plain)
  | other

inductive Err where
  /-- the encrypted method raises -/
  | method
  /-- the torch method raises, for instance because it does not know an argument -/
  | torch
  /-- "returned incorrect size" -/
  | size
  /-- "returned incorrect values" -/
  | values
  /-- `result.size()` of something that has none -/
  | attribute
  /-- torch refuses to subtract a mask -/
  | maskSubtraction
  /-- "Autograd is not supported for in-place functions." -/
  | inplaceAutograd
  /-- what is called is not a function -/
  | notCallable
deriving DecidableEq

/-- A method of an encrypted tensor; the flag is `cfg.debug.validation_mode` while it runs. -/
abbrev Method (σ : Type) := Bool → σ → Except Err (Res × σ)

/-- One entry passes (debug.py:131-133; the quotient is NaN, which passes no test, if both numbers are zero). -/
def passes (tolerance r t : ℚ) : Bool :=
  (decide (|r| + |t| ≠ 0) && decide (|r - t| / (|r| + |t|) ≤ tolerance)) || decide (|r - t| ≤ tolerance * (1 / 10))

/-- The comparison (debug.py:118-139). -/
def compare (tolerance : ℚ) (result : Res) (reference : Ref) : Except Err Unit :=
  match reference, result with
  | .other, _ => .ok ()
  | _, .other => .error .attribute
  | .tensor t, .tensor r =>
    if r.size ≠ t.size then .error .size
    else if (r.data.zip t.data).all fun q => passes tolerance q.1 q.2 then .ok () else .error .values
  | .mask t, .tensor r => if r.size ≠ t.size then .error .size else .error .maskSubtraction

/-- `validation_function` (debug.py:97-142): the method runs with validation switched off; the reference is computed from the plaintexts afterwards. -/
def validated (tolerance : ℚ) (func : Method σ) (torch : σ → Except Err Ref) : Method σ := fun _ s =>
  (func false s).bind fun out => (torch out.2).bind fun ref => (compare tolerance out.1 ref).bind fun _ => .ok out

/-- An attribute: a method, or a value of which only the truth is of interest. -/
inductive Attr (σ : Type) where
  | value (truth : Bool)
  | method (f : Method σ)

/-- Python's `bool(attribute)`. -/
def Attr.truthy : Attr σ → Bool
  | .value b => b
  | .method _ => true

/-- Python's call of an attribute. -/
def Attr.call : Attr σ → Method σ
  | .value _ => fun _ _ => .error .notCallable
  | .method f => f

/-- `validate_attribute` (debug/__init__.py:22-32, debug.py:94-95): `torch` is the method of that name of torch tensors, if there is an attribute of that name. -/
def getattr (validationMode : Bool) (attr : Attr σ) (torch : Option (σ → Except Err Ref)) : Attr σ :=
  if !validationMode then attr else match torch with
    | none => attr
    | some t => .method (validated (1 / 2) attr.call t)

/-- Access to `x.f_` (cryptensor.py:399-416): the result of `x.f` is copied into `x`. `store` is `copy_`, `requiresGrad` the attribute of that name. -/
def getInplace (validationMode autograd : Bool) (requiresGrad : Attr σ) (torchGrad torchF torchFInplace : Option (σ → Except Err Ref)) (f : Attr σ) (store : Res → σ → σ) :
    Except Err (Attr σ) :=
  if autograd && (getattr validationMode requiresGrad torchGrad).truthy then .error .inplaceAutograd
  else
    let func := getattr validationMode f torchF
    .ok (getattr validationMode (.method fun v s => (func.call v s).bind fun out => .ok (out.1, store out.1 out.2)) torchFInplace)

variable {n : ℕ} {ι : Type}

/-- The check of `div_` of one entry: `before` and `after` are the plaintexts (arithmetic.py:467-473). -/
def divPasses (before after : Option ℚ) (y : ℤ) : Bool :=
  match before, after with
  | some b, some a => decide (|a * y - b| < 1)
  | _, _ => false

/-- `div_` of a tensor with one entry, in validation mode (arithmetic.py:454-475): the division as in `divInt`, or `ValueError`. -/
def checkedDiv [NeZero n] (w : WrapPair n Unit) (x : AST n Unit) (y : ℤ) : Option (AST n Unit) :=
  let z : AST n Unit := ⟨divInt w x.share fun _ => y, x.scale⟩
  if divPasses (decode x.scale (reveal x.share ())) (decode z.scale (reveal z.share ())) y then some z else none

end CrypTen.Validation

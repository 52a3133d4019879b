import Mathlib.Data.List.Basic
import Mathlib.Tactic.Common

/-!
# Sizes in split training

Models, of /repo/crypten/nn/privacy/dp_split.py, what the parties know about the sizes of tensors: `forward` (182-223),
`_communicate_and_cache` (225-237), `train`, `eval`, `training` (159-176), and the exchange of sizes in
`_compute_last_layer_grad` (502-519) of `backward` (535-547), for sequences of calls with changing sizes.

Simplifications: tensors are represented by their sizes; the last layer has two-dimensional input, so that the product in
line 519 needs equal first dimensions; all parties make the same calls, and the settings are the same for all of them (they
are read from the configuration).  What is computed from labels, logits and inputs is in `DPSplit`.
-/

namespace CrypTen.SplitSession

/-- The size of a tensor. -/
abbrev Size := List ℕ

/-- `self.cache`. -/
structure Cache where
  /-- "preds_size" -/
  preds : Option Size
  /-- "last_in_size" -/
  lastIn : Option Size
  /-- "last_weight_size" -/
  lastWeight : Option Size
  deriving DecidableEq

/-- The cache of a new object (line 157). -/
def Cache.empty : Cache := ⟨none, none, none⟩

/-- One party: its cache, its training flag, and the sizes of `self.preds` and `self.last_input`. -/
structure Party where
  /-- `self.cache` -/
  cache : Cache
  /-- `self.training` -/
  training : Bool
  /-- size of `self.preds` -/
  preds : Option Size
  /-- size of `self.last_input` -/
  lastInput : Option Size
  deriving DecidableEq

/-- How a call ends at one party. -/
inductive End
  /-- returned -/
  | done
  /-- raised an exception -/
  | raised
  deriving DecidableEq, Repr

/-- What a call does at one party: how often it takes part in a broadcast from the feature source, how it ends, and the
state afterwards. -/
structure Effect where
  /-- number of calls of `broadcast_obj` -/
  broadcasts : ℕ
  /-- how the call ends -/
  result : End
  /-- the party afterwards -/
  party : Party

/-- dp_split.py:225-237 `_communicate_and_cache`: value, new cache entry, number of broadcasts.  `sent` is what the feature
source broadcasts. -/
def communicateAndCache (entry : Option Size) (sent : Size) : Size × Option Size × ℕ :=
  match entry with
  | some v => (v, some v, 0)
  | none => (sent, some sent, 1)

/-- dp_split.py:182-223 `forward` at the feature source; `size` and `lastIn` are the sizes of the predictions and of the
input of the last layer. -/
def forwardFeature (cachePredSize : Bool) (size lastIn : Size) (p : Party) : Effect :=
  if ¬p.training then ⟨0, .done, p⟩
  else
    let p := { p with preds := some size, lastInput := some lastIn }
    if p.cache.preds ≠ none ∧ p.cache.preds ≠ some size then ⟨0, .raised, p⟩
    else if cachePredSize then
      let r := communicateAndCache p.cache.preds size
      ⟨r.2.2, .done, { p with cache := { p.cache with preds := r.2.1 } }⟩
    else ⟨1, .done, p⟩

/-- dp_split.py:182-223 `forward` at another party; `sent` is what the feature source broadcasts. -/
def forwardOther (cachePredSize : Bool) (sent : Size) (p : Party) : Effect :=
  if ¬p.training then ⟨0, .done, p⟩
  else if cachePredSize then
    let r := communicateAndCache p.cache.preds sent
    ⟨r.2.2, .done, { p with preds := some r.1, cache := { p.cache with preds := r.2.1 } }⟩
  else ⟨1, .done, { p with preds := some sent }⟩

/-- dp_split.py:519: `dLdZ_enc.t().matmul(last_input_enc)` needs as many rows in both (at each party, its own sizes). -/
def matmulEnds (preds lastInput : Option Size) : End :=
  match preds, lastInput with
  | some (b :: _), some (b' :: _) => if b = b' then .done else .raised
  | _, _ => .raised

/-- dp_split.py:502-519 at the feature source. -/
def backwardFeature (lastWeight : Size) (p : Party) : Effect :=
  match p.lastInput with
  | none => ⟨0, .raised, p⟩
  | some l =>
    let r := communicateAndCache p.cache.lastIn l
    let r' := communicateAndCache p.cache.lastWeight lastWeight
    ⟨r.2.2 + r'.2.2, matmulEnds p.preds (some l), { p with cache := { p.cache with lastIn := r.2.1, lastWeight := r'.2.1 } }⟩

/-- dp_split.py:502-519 at another party. -/
def backwardOther (sentLastIn lastWeight : Size) (p : Party) : Effect :=
  if p.preds = none then ⟨0, .raised, p⟩
  else
    let r := communicateAndCache p.cache.lastIn sentLastIn
    let r' := communicateAndCache p.cache.lastWeight lastWeight
    ⟨r.2.2 + r'.2.2, matmulEnds p.preds (some r.1),
      { p with lastInput := some r.1, cache := { p.cache with lastIn := r.2.1, lastWeight := r'.2.1 } }⟩

/-- A call that all parties make. -/
inductive Call
  /-- `model(x)`, with the sizes the model of the feature source gives, and `cfg.nn.dpsmpc.cache_pred_size` -/
  | forward (cachePredSize : Bool) (size lastIn : Size)
  /-- `model.backward()` with the protocol `layer_estimation` -/
  | backward
  /-- `model.train(mode)`, `model.eval()` -/
  | train (mode : Bool)

/-- The effect of a call at the feature source (`lastWeight` is the size of the weight of the last linear layer). -/
def callFeature (lastWeight : Size) (p : Party) : Call → Effect
  | .forward c s l => forwardFeature c s l p
  | .backward => backwardFeature lastWeight p
  | .train mode => ⟨0, .done, { p with training := mode }⟩

/-- The effect of a call at another party; `src` is the feature source before the call. -/
def callOther (lastWeight : Size) (src p : Party) : Call → Effect
  | .forward c s _ => forwardOther c s p
  | .backward => backwardOther (src.lastInput.getD []) lastWeight p
  | .train mode => ⟨0, .done, { p with training := mode }⟩

/-- All parties: the feature source and the others. -/
structure Session (k : ℕ) where
  /-- the party `feature_src` -/
  feature : Party
  /-- the other parties -/
  others : Fin k → Party

/-- A party after construction (lines 113-157; `self.train()`). -/
def Party.new : Party := ⟨.empty, true, none, none⟩

/-- The session after construction. -/
def Session.new (k : ℕ) : Session k := ⟨Party.new, fun _ => Party.new⟩

/-- How a call of all parties ends. -/
inductive Outcome (k : ℕ)
  /-- all parties return -/
  | returned (s : Session k)
  /-- some parties raise, others do not; `feature` and `others` say how it ends where -/
  | split (feature : End) (others : Fin k → End) (s : Session k)
  /-- some party waits for a broadcast that another party does not take part in -/
  | stuck
  /-- all parties raise -/
  | raised

/-- One call of all parties. -/
def call {k : ℕ} (lastWeight : Size) (s : Session k) (c : Call) : Outcome k :=
  let f := callFeature lastWeight s.feature c
  let o := fun i => callOther lastWeight s.feature (s.others i) c
  if ∃ i, (o i).broadcasts ≠ f.broadcasts then .stuck
  else
    let s' : Session k := ⟨f.party, fun i => (o i).party⟩
    if f.result = .done ∧ ∀ i, (o i).result = .done then .returned s'
    else if f.result = .raised ∧ ∀ i, (o i).result = .raised then .raised
    else .split f.result (fun i => (o i).result) s'

/-- A sequence of calls; stops when not all parties return. -/
def calls {k : ℕ} (lastWeight : Size) : Session k → List Call → Outcome k
  | s, [] => .returned s
  | s, c :: cs =>
    match call lastWeight s c with
    | .returned s' => calls lastWeight s' cs
    | r => r

/-- Python: a call with `args` arguments of a function with `required` and `optional` positional parameters. -/
def pyCall (required optional args : ℕ) : End := if required ≤ args ∧ args ≤ required + optional then .done else .raised

/-- Python: `object.f(...)` with `args` arguments passes the object as first argument only if `f` is found in the class. -/
def methodCall (inClass : Bool) (required optional args : ℕ) : End :=
  pyCall required optional (if inClass then args + 1 else args)

/-- dp_split.py:330-333: `def backward_(self_, grad_output=None)` is assigned to the object `self.loss`. -/
def lossBackward (args : ℕ) : End := methodCall false 1 1 args

end CrypTen.SplitSession

import Mathlib.Data.Rat.Defs
import Mathlib.Algebra.Order.Field.Rat
import Mathlib.Algebra.BigOperators.Group.List.Basic

/-!
# Communication statistics

Models `Communicator.reset_communication_stats`, `_log_communication`, `_log_communication_time` and the decorator `_logging` (/repo/crypten/communicator/communicator.py:106-236), which wraps every
communication call of `DistributedCommunicator` (/repo/crypten/communicator/distributed_communicator.py:115-325) and none of `InProcessCommunicator` (/repo/crypten/communicator/in_process_communicator.py).

Simplifications: bytes and times are rationals (Python mixes integers and floats, which are exact up to `2^53`); the communication itself succeeds.
-/

namespace CrypTen.Stats

/-- The three counters (communicator.py:106-110). -/
structure Stats where
  rounds : ℕ
  bytes : ℚ
  time : ℚ
deriving DecidableEq

/-- `reset_communication_stats` (communicator.py:106-110). -/
def zero : Stats := ⟨0, 0, 0⟩

/-- `BYTES_PER_ELEMENT` (distributed_communicator.py:30, in_process_communicator.py:20). -/
def bytesPerElement : ℚ := 8

/-- `_log_communication` (communicator.py:143-146). -/
def log (nelement : ℚ) (s : Stats) : Stats := { s with rounds := s.rounds + 1, bytes := s.bytes + nelement * bytesPerElement }

/-- `_log_communication_time` (communicator.py:148-149). -/
def logTime (t : ℚ) (s : Stats) : Stats := { s with time := s.time + t }

/-- The tensor argument of a collective: one tensor, or a list of tensors with `batched=True` given by keyword, or a list with `batched` given by position; only the numbers of elements matter. -/
inductive Payload where
  | one (nelement : ℕ)
  | batched (nelements : List ℕ)
  | batchedPositional (nelements : List ℕ)

/-- The `src` or `dst` argument, given by position or by keyword. -/
inductive Root where
  | pos (rank : ℕ)
  | kw (rank : ℕ)

/-- The communication calls (distributed_communicator.py:115-325). `send`, `recv`, `isend`, `irecv` are counted alike, and so are `broadcast`, `gather`, `reduce`. `got` is the size of the tensor that
`scatter` returns, `nbytes` the value of `sys.getsizeof`. -/
inductive Call where
  | barrier
  | pointToPoint (nelement : ℕ)
  | scatter (src : Root) (sizes : List ℕ) (got : ℕ)
  | allGather (nelement : ℕ)
  | sendObj (nbytes : ℕ)
  | recvObj (nbytes : ℕ)
  | broadcastObj (nbytes : ℕ)
  | rooted (root : Root) (x : Payload)
  | allReduce (x : Payload)

/-- `len(args) > 0` (communicator.py:169-172). -/
def Call.hasArgs : Call → Bool
  | .barrier => false
  | _ => true

/-- `args[1]`: an argument given by keyword is not in `args`, so the access raises `IndexError`. -/
def Root.args1 : Root → Option ℕ
  | .pos r => some r
  | .kw _ => none

/-- `sum(x.nelement() for x in args[0])` if `"batched" in kwargs and kwargs["batched"]`, else `args[0].nelement()`, which a list does not have (communicator.py:205-209, 212-216). -/
def Payload.nelements : Payload → Option ℕ
  | .one m => some m
  | .batched l => some l.sum
  | .batchedPositional _ => none

/-- The elements of a list that are not at position `rank` (communicator.py:186-188). -/
def others (rank : ℕ) : List ℕ → ℕ → List ℕ
  | [], _ => []
  | x :: l, idx => if idx ≠ rank then x :: others rank l (idx + 1) else others rank l (idx + 1)

/-- What is counted before the call is carried out (communicator.py:180-216); `none` is an exception. -/
def before (ws rank : ℕ) (c : Call) (s : Stats) : Option Stats :=
  match c with
  | .barrier => some (log 0 s)
  | .pointToPoint m => some (log m s)
  | .scatter src sizes _ => do
    let r ← src.args1
    if r = rank then some (log ((others rank sizes 0).sum : ℕ) s) else some s
  | .allGather m => some (log (2 * ((ws : ℚ) - 1) * m) s)
  | .sendObj b => some (log (b / bytesPerElement) s)
  | .recvObj _ => some s
  | .broadcastObj b => some (log (b / bytesPerElement * ((ws : ℚ) - 1)) s)
  | .rooted root x => do
    let r ← root.args1
    let m ← x.nelements
    some (log (m * if r = rank then (ws : ℚ) - 1 else 1) s)
  | .allReduce x => do
    let m ← x.nelements
    some (log (2 * m) s)

/-- What is counted after the call (communicator.py:224-229). -/
def after (rank : ℕ) (c : Call) (s : Stats) : Option Stats :=
  match c with
  | .scatter src _ got => do
    let r ← src.args1
    if r ≠ rank then some (log got s) else some s
  | .recvObj b => some (log (b / bytesPerElement) s)
  | _ => some s

/-- `_logging` (communicator.py:164-233): the counters after the call, which takes time `t`. In a world of one party every call with an argument returns that argument and is not counted (communicator.py:167-172);
`barrier` has none. -/
def logged (verbose : Bool) (ws rank : ℕ) (c : Call) (t : ℚ) (s : Stats) : Option Stats :=
  if ws < 2 ∧ c.hasArgs then some s
  else if verbose then do
    let s ← before ws rank c s
    after rank c (logTime t s)
  else some s

/-- What happens to the counters of one party: a communication call, `reset_communication_stats`, or a change of `cfg.communicator.verbose`. -/
inductive Event where
  | call (c : Call) (t : ℚ)
  | reset
  | verbose (b : Bool)

/-- The setting and the counters after a list of events (communicator.py:106-110, 164-233). -/
def run (ws rank : ℕ) : List Event → Bool × Stats → Option (Bool × Stats)
  | [], s => some s
  | .call c t :: l, (v, s) => do
    let s' ← logged v ws rank c t s
    run ws rank l (v, s')
  | .reset :: l, (v, _) => run ws rank l (v, zero)
  | .verbose b :: l, (_, s) => run ws rank l (b, s)

/-- The calls of `InProcessCommunicator` are not decorated (in_process_communicator.py:67-194): the counters stay as they are. -/
def runThreads : List Event → Bool × Stats → Bool × Stats
  | [], s => s
  | .call _ _ :: l, s => runThreads l s
  | .reset :: l, (v, _) => runThreads l (v, zero)
  | .verbose b :: l, (_, s) => runThreads l (b, s)

end CrypTen.Stats

import Mathlib.Data.Fintype.Basic
import Mathlib.Tactic.Common

/-!
# Output and files of several parties

Models `crypten.save`, `save_from_party`, `load` (/repo/crypten/__init__.py:368-430) and `print`, `log`
(/repo/crypten/__init__.py:514-577; also /repo/crypten/debug/debug.py:45-87) together with `barrier` of the two communicators
(/repo/crypten/communicator/distributed_communicator.py:263-270; the in-process communicator has an attribute `barrier` that is
not a function, in_process_communicator.py:44), for every schedule of the parties.

Simplifications: `torch.save` and `torch.load` write and read one value in one step; file systems are numbered; the checks of
the arguments of `save_from_party` pass.
-/

namespace CrypTen.Files

/-- What a party does between two barriers. -/
inductive Act (α : Type)
  /-- a line of output -/
  | print (message : α)
  /-- a file is written -/
  | write (path : String) (value : α)
  /-- a file is read -/
  | read (path : String)
  deriving DecidableEq

/-- A step of a program. -/
inductive Item (α : Type)
  /-- an action -/
  | act (a : Act α)
  /-- `comm.get().barrier()` -/
  | barrier
  deriving DecidableEq

/-- The parties: what they still have to do, which of them have raised, and what was done so far, in order. -/
structure State (n : ℕ) (α : Type) where
  /-- rest of each party's program -/
  rest : Fin n → List (Item α)
  /-- has raised an exception -/
  raised : Fin n → Bool
  /-- everything done so far -/
  trace : List (Fin n × Act α)

/-- All parties are at a barrier. -/
def State.allAtBarrier {n : ℕ} {α : Type} (s : State n α) : Prop :=
  ∀ q, (s.rest q).head? = some .barrier

/-- One step of party `r`.  A barrier lets all parties pass when all have reached it, and blocks until then
(distributed_communicator.py:263-270); in threads it is an object that cannot be called: `TypeError`. -/
noncomputable def step {n : ℕ} {α : Type} (threads : Bool) (s : State n α) (r : Fin n) : State n α :=
  match s.rest r with
  | [] => s
  | .act a :: l => { s with rest := fun q => if q = r then l else s.rest q, trace := s.trace ++ [(r, a)] }
  | .barrier :: _ =>
    if threads then
      { s with rest := fun q => if q = r then [] else s.rest q, raised := fun q => if q = r then true else s.raised q }
    else
      open Classical in
      if s.allAtBarrier then { s with rest := fun q => (s.rest q).tail } else s

/-- A schedule: which party moves next. -/
noncomputable def run {n : ℕ} {α : Type} (threads : Bool) (s : State n α) (schedule : List (Fin n)) : State n α :=
  schedule.foldl (step threads) s

/-- The parties at the beginning of their programs. -/
def start {n : ℕ} {α : Type} (program : Fin n → List (Item α)) : State n α := ⟨program, fun _ => false, []⟩

/-- /repo/crypten/__init__.py:519-524: the loop of `print(..., in_order=True)` from `i` on, with `k` rounds left. -/
def printInOrderFrom {α : Type} (rank : ℕ) (message : α) : (i k : ℕ) → List (Item α)
  | _, 0 => []
  | i, k + 1 => (if rank = i then [.act (.print message)] else []) ++ .barrier :: printInOrderFrom rank message (i + 1) k

/-- /repo/crypten/__init__.py:514-534 `print(message, in_order=True)` at one party of `worldSize`. -/
def printInOrder {α : Type} (worldSize rank : ℕ) (message : α) : List (Item α) := printInOrderFrom rank message 0 worldSize

/-- /repo/crypten/__init__.py:526-534 `print(message, dst=dst)`. -/
def printDst {α : Type} (dst : List ℕ) (rank : ℕ) (message : α) : List (Item α) :=
  if rank ∈ dst then [.act (.print message)] else []

/-- /repo/crypten/__init__.py:416-430 `save`: each party writes its shares. -/
def save {α : Type} (path : String) (share : α) : List (Item α) := [.act (.write path share), .barrier]

/-- /repo/crypten/__init__.py:392-413 `save_from_party`. -/
def saveFromParty {α : Type} (src rank : ℕ) (path : String) (value : α) : List (Item α) :=
  (if rank = src then [.act (.write path value)] else []) ++ [.barrier]

/-- `save_from_party` at the source if writing fails: the exception ends the call before the barrier. -/
def saveFailed {α : Type} : List (Item α) := []

/-- /repo/crypten/__init__.py:368-389 `load`. -/
def load {α : Type} (path : String) : List (Item α) := [.act (.read path)]

/-- The contents of a file after a trace: the last value written to it; `disk r` is the file system of party `r`. -/
def content {n : ℕ} {α : Type} (disk : Fin n → ℕ) (d : ℕ) (path : String) : List (Fin n × Act α) → Option α
  | [] => none
  | (r, .write p v) :: t =>
    match content disk d path t with
    | some w => some w
    | none => if disk r = d ∧ p = path then some v else none
  | _ :: t => content disk d path t

/-- What party `r` reads from `path`, for each of its reads in the trace (`before`: what was done before). -/
def reads {n : ℕ} {α : Type} (disk : Fin n → ℕ) (r : Fin n) : (before : List (Fin n × Act α)) → List (Fin n × Act α) →
    List (Option α)
  | _, [] => []
  | before, (q, .read p) :: t =>
    (if q = r then [content disk (disk r) p before] else []) ++ reads disk r (before ++ [(q, .read p)]) t
  | before, x :: t => reads disk r (before ++ [x]) t

end CrypTen.Files

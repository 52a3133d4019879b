import Mathlib.Algebra.BigOperators.Group.List.Basic
import Mathlib.Data.List.Sort

/-!
# The in-process communicator

Models `InProcessCommunicator` (/repo/crypten/communicator/in_process_communicator.py): the parties are threads, each with a mailbox (an unbounded `queue.Queue`), and one barrier. The atomic
steps of a thread are one `put`, one `get`, arriving at the barrier, leaving the barrier, and returning from a call. A schedule is any list of ranks: the named thread takes its next step if it
can, and does nothing if it is blocked or has finished.

Simplifications: all ranks issue the same list of calls (the tensors they pass may depend on the results they have seen); tensors are values (every `put` clones); `async_op=True` (which raises)
and `ReduceOp`s other than SUM (which raise) are left out.
-/

namespace CrypTen.Threads

/-- What lies in a mailbox: `(rank, tensor)` (in_process_communicator.py:69, 158, 172) or a bare tensor (in_process_communicator.py:118, 190). -/
inductive Msg (α : Type) where
  | tagged (rank : ℕ) (tensor : α)
  | raw (tensor : α)
deriving DecidableEq, Repr

/-- What a call returns: nothing, a list of tensors, a tensor, whatever was found in the mailbox if that is not a tensor, or an exception. -/
inductive Res (α : Type) where
  | none
  | list (tensors : List α)
  | tensor (t : α)
  | other (m : Msg α)
  | error
deriving DecidableEq, Repr

/-- The calls. `shift` is `isend` to the next rank, `irecv` from the previous rank and waiting for both, as `_sync_seeds` does (/repo/crypten/__init__.py:238-246). -/
inductive Op where
  | allGather
  | gather (dst : ℕ)
  | allReduce
  | reduce (dst : ℕ)
  | scatter (src : ℕ)
  | broadcast (src : ℕ)
  | shift
deriving DecidableEq, Repr

/-- What a rank passes to a call: the tensor, or for scatter the list of tensors (entry `i` for rank `i`). -/
structure Arg (α : Type) where
  tensor : α
  scatterList : ℕ → α := fun _ => tensor

variable {α : Type}

/-- The mailboxes a rank puts messages into, in this order (in_process_communicator.py:69, 116-118, 158, 171-172, 188-190). -/
def targets (n : ℕ) : Op → ℕ → List ℕ
  | .allGather, _ | .allReduce, _ => List.range n
  | .gather dst, _ | .reduce dst, _ => [dst]
  | .scatter src, r | .broadcast src, r => if r = src then List.range n else []
  | .shift, r => [(r + 1) % n]

/-- The message a rank puts into mailbox `dst` (in_process_communicator.py:69, 118, 158, 172, 190). -/
def message : Op → ℕ → Arg α → ℕ → Msg α
  | .allGather, r, a, _ | .allReduce, r, a, _ | .gather _, r, a, _ | .reduce _, r, a, _ | .shift, r, a, _ => .tagged r a.tensor
  | .scatter _, _, a, dst => .raw (a.scatterList dst)
  | .broadcast _, _, a, _ => .raw a.tensor

/-- Whether the call waits at the barrier after its puts (in_process_communicator.py:120, 160, 174; "No need for a barrier here", in_process_communicator.py:192). -/
def hasBarrier : Op → Bool
  | .broadcast _ | .shift => false
  | _ => true

/-- How many messages a rank takes from its own mailbox (in_process_communicator.py:73, 122, 162-163, 176-179, 194). -/
def expected (n : ℕ) : Op → ℕ → ℕ
  | .allGather, _ | .allReduce, _ => n
  | .gather dst, r | .reduce dst, r => if r = dst then n else 0
  | .scatter _, _ | .broadcast _, _ | .shift, _ => 1

/-- The pairs in a list of messages; `none` if there is a bare tensor among them (unpacking it fails). -/
def pairs : List (Msg α) → Option (List (ℕ × α))
  | [] => some []
  | .tagged r t :: l => (pairs l).map ((r, t) :: ·)
  | .raw _ :: _ => none

/-- `sorted(result, key=itemgetter(0))` (stable), then the tensors (in_process_communicator.py:164, 176-181). -/
def sortedTensors (l : List (ℕ × α)) : List α := (l.mergeSort fun a b => decide (a.1 ≤ b.1)).map Prod.snd

/-- What a call returns, from the messages taken out of the mailbox (in_process_communicator.py:73-76, 122, 126-129, 149-151, 162-164, 176-181, 194). -/
def finish [AddCommMonoid α] (n : ℕ) : Op → ℕ → List (Msg α) → Res α
  | .allGather, _, l => match pairs l with | some p => .list (sortedTensors p) | none => .error
  | .allReduce, _, l => match pairs l with | some p => .tensor (sortedTensors p).sum | none => .error
  | .gather dst, r, l => if r = dst then match pairs l with | some p => .list (sortedTensors p) | none => .error else .none
  | .reduce dst, r, l => if r = dst then match pairs l with | some p => .tensor (sortedTensors p).sum | none => .error else .none
  | .scatter _, _, l | .broadcast _, _, l => match l with | [.raw t] => .tensor t | [m] => .other m | _ => .error
  | .shift, r, l => match l with | [.tagged s t] => if s = (r + 1 + n - 2) % n then .tensor t else .error | _ => .error

/-- Where a thread is in its current call. -/
inductive Phase (α : Type) where
  | put (i : ℕ)
  | wait
  | get (taken : List (Msg α))

/-- A thread: the results of the calls it has completed, and where it is in the next one. -/
structure Thread (α : Type) where
  results : List (Res α) := []
  phase : Phase α := .put 0

/-- Threads and mailboxes. -/
structure State (α : Type) where
  thread : ℕ → Thread α
  box : ℕ → List (Msg α)

/-- A program: the calls all ranks issue, and what each rank passes to the next call after seeing the results of its earlier ones. -/
structure Program (α : Type) where
  ops : List Op
  arg : ℕ → List (Res α) → Arg α

/-- The thread has arrived at the barrier of call `k`. (`threading.Barrier` counts arrivals; a thread cannot arrive twice in a round since it waits for the round to end.) -/
def arrived (st : State α) (j k : ℕ) : Prop :=
  k < (st.thread j).results.length ∨ (st.thread j).results.length = k ∧ ∀ i, (st.thread j).phase ≠ .put i

/-- `arrived` as a test. -/
def arrivedB (st : State α) (j k : ℕ) : Bool :=
  decide (k < (st.thread j).results.length) || (decide ((st.thread j).results.length = k) && match (st.thread j).phase with | .put _ => false | _ => true)

/-- Replace the thread of rank `r`. -/
def State.setThread (st : State α) (r : ℕ) (t : Thread α) : State α := { st with thread := fun j => if j = r then t else st.thread j }

/-- Replace mailbox `r`. -/
def State.setBox (st : State α) (r : ℕ) (b : List (Msg α)) : State α := { st with box := fun j => if j = r then b else st.box j }

/-- The next step of rank `r`'s thread; `none` if it is blocked or has finished (in_process_communicator.py:67-194). -/
def step [AddCommMonoid α] (n : ℕ) (p : Program α) (r : ℕ) (st : State α) : Option (State α) :=
  let t := st.thread r
  match p.ops[t.results.length]? with
  | none => none
  | some op =>
    match t.phase with
    | .put i =>
      match (targets n op r)[i]? with
      | some dst => some ((st.setBox dst (st.box dst ++ [message op r (p.arg r t.results) dst])).setThread r { t with phase := .put (i + 1) })
      | none => some (st.setThread r { t with phase := if hasBarrier op then .wait else .get [] })
    | .wait => if (List.range n).all fun j => arrivedB st j t.results.length then some (st.setThread r { t with phase := .get [] }) else none
    | .get taken =>
      if taken.length < expected n op r then
        match st.box r with
        | [] => none
        | m :: rest => some ((st.setBox r rest).setThread r { t with phase := .get (taken ++ [m]) })
      else some (st.setThread r { results := t.results ++ [finish n op r taken], phase := .put 0 })

/-- All threads at their first call, all mailboxes empty (in_process_communicator.py:36-44). -/
def initial : State α := { thread := fun _ => {}, box := fun _ => [] }

/-- Run a schedule. -/
def run [AddCommMonoid α] (n : ℕ) (p : Program α) (schedule : List ℕ) : State α :=
  schedule.foldl (fun st r => if r < n then (step n p r st).getD st else st) initial

end CrypTen.Threads

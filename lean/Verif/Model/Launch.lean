import Mathlib.Data.Fintype.BigOperators
import Mathlib.Data.Fin.Basic
import Mathlib.Logic.Function.Basic
import Mathlib.Data.List.Sort

/-!
# Launching parties as processes

Models `run_multiprocess` and `_launch` (/repo/crypten/mpc/context.py:19-115) with the queue that carries the results. `multiprocessing.Queue(maxsize)` bounds the number of items by a semaphore; `put` hands the
item to a thread of the process, which pickles it, takes a lock that all processes share, and writes the bytes into a pipe of limited capacity; a process ends only when its thread
has written everything (Python documentation of `multiprocessing.Queue`, "Joining processes that use queues"). The parent waits for all processes before it reads from the queue.

Not modelled: what the parties do before they return or raise (they may also wait for each other); `crypten.uninit()` and `crypten.init()` in the parent.
-/

namespace CrypTen.Launch

/-- What the function does in one process: return a value, whose pickled form has `size` bytes; return a value that cannot be pickled (as the `TTPServer` does, which holds process groups); raise. -/
inductive Outcome (V : Type) where
  | returns (v : V) (size : ℕ)
  | unpicklable
  | raises

/-- Where a process is: in `func` (context.py:30), at `queue.put` (context.py:34), its thread waits for the lock or writes with `left` bytes to go, everything written, ended with exit code 0 or not. -/
inductive Phase where
  | running
  | putting
  | waiting
  | writing (left : ℕ)
  | flushed
  | exited (ok : Bool)
deriving DecidableEq

/-- `phase`: the processes. `items`: how often the semaphore of the queue was taken. `used`: bytes in the pipe. `pipe`: the complete messages in the pipe. -/
structure State (n : ℕ) (V : Type) where
  phase : Fin n → Phase
  items : ℕ
  used : ℕ
  pipe : List (Fin n × V)

variable {n : ℕ} {V : Type}

/-- All processes started (context.py:91-92). -/
def init : State n V := ⟨fun _ => .running, 0, 0, []⟩

/-- One step of one process. `maxsize = 0` stands for an unbounded queue (context.py:49-52), `cap` is the capacity of the pipe. -/
inductive Step (outcome : Fin n → Outcome V) (maxsize cap : ℕ) : State n V → State n V → Prop where
  /-- `func` returns (context.py:30-31) -/
  | finish (s : State n V) (p : Fin n) (hp : s.phase p = .running) (ho : outcome p ≠ .raises) :
      Step outcome maxsize cap s { s with phase := Function.update s.phase p .putting }
  /-- `func` raises: the process ends with exit code 1 -/
  | fail (s : State n V) (p : Fin n) (hp : s.phase p = .running) (ho : outcome p = .raises) :
      Step outcome maxsize cap s { s with phase := Function.update s.phase p (.exited false) }
  /-- `queue.put((rank, return_value))` (context.py:33) -/
  | put (s : State n V) (p : Fin n) (hp : s.phase p = .putting) (hs : maxsize = 0 ∨ s.items < maxsize) (v : V) (size : ℕ) (ho : outcome p = .returns v size) :
      Step outcome maxsize cap s { s with phase := Function.update s.phase p .waiting, items := s.items + 1 }
  /-- the same, but pickling fails in the thread: a traceback is printed, and nothing is written -/
  | drop (s : State n V) (p : Fin n) (hp : s.phase p = .putting) (hs : maxsize = 0 ∨ s.items < maxsize) (ho : outcome p = .unpicklable) :
      Step outcome maxsize cap s { s with phase := Function.update s.phase p .flushed, items := s.items + 1 }
  /-- take the lock of the pipe -/
  | lock (s : State n V) (p : Fin n) (hp : s.phase p = .waiting) (hl : ∀ q k, s.phase q ≠ .writing k) (v : V) (size : ℕ) (ho : outcome p = .returns v size) :
      Step outcome maxsize cap s { s with phase := Function.update s.phase p (.writing size) }
  /-- write some bytes; this blocks while the pipe is full -/
  | write (s : State n V) (p : Fin n) (left k : ℕ) (hp : s.phase p = .writing left) (hk : 1 ≤ k) (hkl : k ≤ left) (hc : s.used + k ≤ cap) :
      Step outcome maxsize cap s { s with phase := Function.update s.phase p (.writing (left - k)), used := s.used + k }
  /-- the message is complete; release the lock -/
  | unlock (s : State n V) (p : Fin n) (hp : s.phase p = .writing 0) (v : V) (size : ℕ) (ho : outcome p = .returns v size) :
      Step outcome maxsize cap s { s with phase := Function.update s.phase p .flushed, pipe := s.pipe ++ [(p, v)] }
  /-- the process ends -/
  | exit (s : State n V) (p : Fin n) (hp : s.phase p = .flushed) :
      Step outcome maxsize cap s { s with phase := Function.update s.phase p (.exited true) }

/-- `for process in processes: process.join()` (context.py:94-95) returns when all processes have ended. -/
def Joined (s : State n V) : Prop := ∀ p, ∃ ok, s.phase p = .exited ok

/-- What the wrapper returns then (context.py:100-109): `None` if an exit code is not 0, else the values in the queue, sorted by rank. -/
def result (s : State n V) : Option (List V) :=
  if ∀ p, s.phase p = .exited true then some ((s.pipe.insertionSort fun a b => a.1 ≤ b.1).map Prod.snd) else none

/-- States after some number of steps. -/
inductive After (outcome : Fin n → Outcome V) (maxsize cap : ℕ) : ℕ → State n V → Prop where
  | start : After outcome maxsize cap 0 init
  | step {k : ℕ} {s t : State n V} (h : After outcome maxsize cap k s) (hs : Step outcome maxsize cap s t) : After outcome maxsize cap (k + 1) t

end CrypTen.Launch

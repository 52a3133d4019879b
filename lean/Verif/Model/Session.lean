import Mathlib.Data.Nat.Notation
import Mathlib.Logic.Function.Basic

/-!
# Starting and ending CrypTen

Models `crypten.init`, `init_thread`, `uninit` and `is_initialized` (/repo/crypten/__init__.py:44-92), the communicator package (/repo/crypten/communicator/__init__.py:13-45), creation and shutdown of the two
communicators (/repo/crypten/communicator/distributed_communicator.py:33-115, /repo/crypten/communicator/in_process_communicator.py:26-62, 132-136) and the client of the trusted third party
(/repo/crypten/mpc/provider/ttp_provider.py:128-206), in one process with any number of threads. Process groups are numbered in the order of their creation, and so are the exchanges of seeds
(`_setup_prng`, crypten/__init__.py:167-213; what is exchanged is C01 and C37). Configuration files, environment variables and party names are left out.
-/

namespace CrypTen.Session

/-- The attributes of a `DistributedCommunicator` whose constructor ran to the end (distributed_communicator.py:54-66): the process group in which its groups were made, and `ttp_initialized`. -/
structure Inst where
  session : ℕ
  ttp : Bool
deriving DecidableEq

/-- The state of the process; `T` are its threads. -/
structure Proc (T : Type) where
  /-- `communicator.__use_threads` -/
  useThreads : Bool
  /-- the current process group of `torch.distributed` -/
  pg : Option ℕ
  /-- process groups made so far -/
  sessions : ℕ
  /-- `DistributedCommunicator.instance`: `None`, an object without attributes, or a complete one -/
  inst : Option (Option Inst)
  /-- exchanges of seeds so far -/
  exchanges : ℕ
  /-- the exchange from which `crypten.generators` are seeded -/
  gens : Option ℕ
  /-- `TTPClient.__instance`: the process group in which it was made; its groups and seed are those of that group -/
  client : Option ℕ
  /-- `InProcessCommunicator.tls.instance`: rank and world size, for every thread -/
  tls : T → Option (ℕ × ℕ)
  /-- `InProcessCommunicator.mailbox` and `barrier`: for how many parties they were made -/
  mailbox : Option ℕ

/-- A process that has just imported CrypTen. -/
def fresh (T : Type) : Proc T := ⟨false, none, 0, none, 0, none, none, fun _ => none, none⟩

inductive Err where
  /-- "Crypten not initialized. Please call crypten.init() first." -/
  | notInitialized
  /-- torch: the default process group has not been initialised -/
  | noProcessGroup
  /-- an attribute of the communicator is missing -/
  | attribute
  /-- "TTPClient is not initialized" -/
  | noClient
  /-- torch: the group does not exist (any more) -/
  | deadGroup
  /-- there is no mailbox for this rank -/
  | noMailbox
deriving DecidableEq, Repr

variable {T : Type} [DecidableEq T]

/-- `DistributedCommunicator.is_initialized()` (distributed_communicator.py:69-72). -/
def distInitialized (s : Proc T) : Bool := s.inst.isSome && s.pg.isSome

/-- `communicator.is_initialized()`, in the thread `t` (communicator/__init__.py:42-44, in_process_communicator.py:63-65). -/
def isInitialized (s : Proc T) (t : T) : Bool := if s.useThreads then (s.tls t).isSome else distInitialized s

/-- `_setup_prng()` (crypten/__init__.py:167-213): the generators are seeded from a new exchange. -/
def setupPrng (s : Proc T) : Proc T := { s with exchanges := s.exchanges + 1, gens := some s.exchanges }

/-- `DistributedCommunicator.initialize` (distributed_communicator.py:33-66, 75-101): nothing is set up if there is a process group already. -/
def distInitialize (ttp : Bool) (s : Proc T) : Proc T := match s.pg with
  | none => { s with pg := some s.sessions, sessions := s.sessions + 1, inst := some (some ⟨s.sessions, ttp⟩) }
  | some _ => { s with inst := some none }

/-- `TTPClient._init()` (ttp_provider.py:135-140, 191-194): the constructor takes the groups of the communicator. -/
def clientInit (s : Proc T) : Except Err (Proc T) := match s.client with
  | some _ => .ok s
  | none => match s.inst with
    | some (some i) => .ok { s with client := some i.session }
    | _ => .error .attribute

/-- `crypten.init()` in the thread `t` (crypten/__init__.py:62-79, communicator/__init__.py:24-32). `party`: the rank of this process is below the world size; `ttp`: the provider is the trusted third party. An exception
leaves the changes made so far. -/
def init (party ttp : Bool) (t : T) (s : Proc T) : Proc T × Except Err Unit :=
  if isInitialized s t then (s, .ok ())
  else
    let s := { s with useThreads := false }
    let s := if distInitialized s then s else distInitialize ttp s
    match s.inst with
    | some (some _) =>
      if party then
        let s := setupPrng s
        if ttp then match clientInit s with
          | .ok s => (s, .ok ())
          | .error e => (s, .error e)
        else (s, .ok ())
      else (s, .ok ())
    | _ => (s, .error .attribute)

/-- `crypten.init_thread(rank, world_size)` in the thread `t` (crypten/__init__.py:82-84, communicator/__init__.py:24-32, in_process_communicator.py:26-46). -/
def initThread (rank world : ℕ) (t : T) (s : Proc T) : Proc T :=
  let s := { s with useThreads := true }
  let s := if (s.tls t).isSome then s else
    { s with tls := Function.update s.tls t (some (rank, world)), mailbox := match s.mailbox with | none => some world | some m => some m }
  setupPrng s

/-- `crypten.uninit()` (crypten/__init__.py:87-88, communicator/__init__.py:35-39, distributed_communicator.py:105-115, in_process_communicator.py:132-136). -/
def uninit (s : Proc T) : Proc T × Except Err Unit :=
  if s.useThreads then ({ s with tls := fun _ => none, mailbox := none, useThreads := false }, .ok ())
  else match s.pg with
    | none => (s, .error .noProcessGroup)
    | some _ => match s.inst with
      | some (some _) => ({ s with pg := none, inst := none, useThreads := false }, .ok ())
      | _ => (s, .error .attribute)

/-- `torch.distributed.init_process_group` called by the user: refused if there is a group. -/
def userGroup (s : Proc T) : Proc T := match s.pg with
  | none => { s with pg := some s.sessions, sessions := s.sessions + 1 }
  | some _ => s

/-- `TTPClient.get().ttp_request(…)` of party 0 (ttp_provider.py:168-187, 203-206): the message goes to the groups the client was made with; the result is the number of the process group whose seeds the client uses. -/
def request (t : T) (s : Proc T) : Except Err ℕ := match s.client with
  | none => .error .noClient
  | some k =>
    if isInitialized s t then
      if s.pg = some k then .ok k else .error .deadGroup
    else .error .notInitialized

/-- `comm.get().send(tensor, dst)` in the thread `t` (communicator/__init__.py:16-21, in_process_communicator.py:67-69): the rank of the sender is put into the mailbox. With `__use_threads` off the call goes to the
other communicator, of which only the exception for a missing session is modelled. -/
def sendThread (dst : ℕ) (t : T) (s : Proc T) : Except Err ℕ :=
  if s.useThreads then match s.tls t, s.mailbox with
    | some (rank, _), some m => if dst < m then .ok rank else .error .noMailbox
    | some _, none => .error .noMailbox
    | none, _ => .error .notInitialized
  else .error .notInitialized

end CrypTen.Session

import Verif.Model.Session

/-!
# Histories of starting and ending
-/

namespace CrypTen.Session

/-- What a program calls, one after the other. -/
inductive Call where
  | init
  | uninit
deriving DecidableEq, Repr

/-- Whether a session is open after these calls: the last one was `init`. -/
def live (h : List Call) : Bool := h.getLast? = some .init

/-- How many sessions were opened: an `init` within a session opens none. -/
def opened : Bool → List Call → ℕ
  | _, [] => 0
  | false, .init :: h => opened true h + 1
  | true, .init :: h => opened true h
  | _, .uninit :: h => opened false h

variable {T : Type} [DecidableEq T]

/-- One call in the thread `t` of a party, with or without a trusted third party. -/
def step (ttp : Bool) (t : T) (s : Proc T) : Call → Proc T × Except Err Unit
  | .init => init true ttp t s
  | .uninit => uninit s

/-- The state after the calls; exceptions are caught. -/
def run (ttp : Bool) (t : T) (h : List Call) (s : Proc T) : Proc T := h.foldl (fun s c => (step ttp t s c).1) s

/-- Threads with their ranks, all calling `init_thread` for the same world size. -/
def startThreads (world : ℕ) (ps : List (T × ℕ)) (s : Proc T) : Proc T := ps.foldl (fun s p => initThread p.2 world p.1 s) s

end CrypTen.Session

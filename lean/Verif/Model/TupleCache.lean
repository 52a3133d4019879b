import Mathlib.Data.List.Count
import Mathlib.Data.List.Perm.Basic
import Mathlib.Data.List.Nodup

/-!
# The tuple cache

/repo/crypten/mpc/provider/provider.py. A request is a function name with its arguments; the model keeps it abstract. A generated tuple is represented by the number of
the generation that produced it and the request it was generated for.
-/

namespace CrypTen

/-- A tuple: the how-manieth generated one it is, and what it was generated for. -/
structure Tup (Req : Type) where
  id : ℕ
  req : Req

/-- The exceptions that occur. -/
inductive CacheError where
  /-- `[].pop()` -/
  | indexError
  /-- an argument that is not hashable, such as a list -/
  | typeError
  /-- `list` has no attribute `empty` -/
  | attributeError
  deriving DecidableEq

/-- `self.tracing`, `self.request_cache`, `self.tuple_cache` (a dictionary, as a list of keys and values), the two cache files of this party, and the number of tuples
generated so far. -/
structure Provider (Req : Type) where
  tracing : Bool := false
  requests : List Req := []
  cache : List (Req × List (Tup Req)) := []
  requestFile : Option (List Req) := none
  cacheFile : Option (List (Req × List (Tup Req))) := none
  generated : ℕ := 0

namespace Provider
variable {Req : Type} [DecidableEq Req] (hashable : Req → Bool)

/-- `object.__getattribute__(self, func_name)(*args, **kwargs)`: run the provider's protocol. -/
def generate (s : Provider Req) (q : Req) : Tup Req × Provider Req := (⟨s.generated, q⟩, { s with generated := s.generated + 1 })

/-- `self.tuple_cache[key]` -/
def lookup (c : List (Req × List (Tup Req))) (q : Req) : Option (List (Tup Req)) := (c.find? fun e => e.1 = q).map Prod.snd

/-- `self.tuple_cache[key] = value` for a key that is present -/
def replace (c : List (Req × List (Tup Req))) (q : Req) (v : List (Tup Req)) : List (Req × List (Tup Req)) := c.map fun e => if e.1 = q then (q, v) else e

/-- `trace` (provider.py:45-51). -/
def trace (s : Provider Req) (b : Bool) : Provider Req := { s with tracing := b }

/-- `trace_once` (provider.py:53-58): `self.request_cache` is a list, and lists have no method `empty`. -/
def traceOnce (s : Provider Req) : Option CacheError × Provider Req := (some .attributeError, s)

/-- One tuple stored by `fill_cache` (provider.py:147-155): `append` to the list of the key, or start a new one. -/
def store (c : List (Req × List (Tup Req))) (q : Req) (t : Tup Req) : List (Req × List (Tup Req)) :=
  match lookup c q with
  | some l => replace c q (l ++ [t])
  | none => c ++ [(q, [t])]

/-- The loop of `fill_cache` (provider.py:143-155). The tuple is generated before its hash is computed. -/
def fillLoop (s : Provider Req) : List Req → Option CacheError × Provider Req
  | [] => (none, s)
  | q :: qs =>
    let (t, s) := s.generate q
    if hashable q then fillLoop { s with cache := store s.cache q t } qs else (some .typeError, s)

/-- `fill_cache` (provider.py:143-155); the request cache is kept. -/
def fill (s : Provider Req) : Option CacheError × Provider Req := fillLoop hashable s s.requests

/-- A request through `__getattribute__` (provider.py:112-141). `l.pop()` takes the last element. -/
def request (s : Provider Req) (q : Req) : Except CacheError (Tup Req) × Provider Req :=
  if s.tracing then
    let (t, s) := generate { s with requests := s.requests ++ [q] } q
    (.ok t, s)
  else if s.cache = [] then
    let (t, s) := s.generate q
    (.ok t, s)
  else if !hashable q then (.error .typeError, s)
  else
    match lookup s.cache q with
    | some l =>
      match l.getLast? with
      | some t => (.ok t, { s with cache := replace s.cache q l.dropLast })
      | none => (.error .indexError, s)
    | none =>
      let (t, s) := s.generate q
      (.ok t, s)

/-- `_save_requests` (provider.py:60-67). -/
def saveRequests (s : Provider Req) : Provider Req := if s.requests = [] then s else { s with requestFile := some s.requests, requests := [] }

/-- `_save_tuples` (provider.py:77-84). -/
def saveTuples (s : Provider Req) : Provider Req := if s.cache = [] then s else { s with cacheFile := some s.cache, cache := [] }

/-- `save_cache` (provider.py:94-101). -/
def save (s : Provider Req) : Provider Req := s.saveRequests.saveTuples

/-- `_load_requests` (provider.py:69-75). -/
def loadRequests (s : Provider Req) : Provider Req :=
  match s.requestFile with
  | some r => { s with requests := r, requestFile := none }
  | none => s

/-- `_load_tuples` (provider.py:86-92). -/
def loadTuples (s : Provider Req) : Provider Req :=
  match s.cacheFile with
  | some c => { s with cache := c, cacheFile := none }
  | none => s

/-- `load_cache` (provider.py:103-110). -/
def load (s : Provider Req) : Provider Req := s.loadRequests.loadTuples

/-- What a program does with the provider. -/
inductive Op (Req : Type) where
  | trace (b : Bool)
  | traceOnce
  | fill
  | save
  | load
  | request (q : Req)

/-- One operation; only requests have an answer. -/
def step (s : Provider Req) : Op Req → Option (Except CacheError (Tup Req)) × Provider Req
  | .trace b => (none, s.trace b)
  | .traceOnce => (none, s.traceOnce.2)
  | .fill => (none, (s.fill hashable).2)
  | .save => (none, s.save)
  | .load => (none, s.load)
  | .request q => (some (s.request hashable q).1, (s.request hashable q).2)

/-- A history, in which the program may catch the exceptions and go on; the list has the requests and their answers, in order. -/
def run (s : Provider Req) : List (Op Req) → List (Req × Except CacheError (Tup Req)) × Provider Req
  | [] => ([], s)
  | o :: os =>
    let (a, s) := step hashable s o
    let (as, s) := run s os
    (match o, a with
      | .request q, some a => (q, a) :: as
      | _, _ => as, s)

/-- The tuples among the answers. -/
def served (as : List (Req × Except CacheError (Tup Req))) : List (Tup Req) :=
  as.filterMap fun a => match a.2 with
    | .ok t => some t
    | .error _ => none

end Provider
end CrypTen

import Mathlib.Data.List.Basic
import Mathlib.Data.Nat.Notation

/-!
# Graph models

Models `Graph.add_module` and `Graph.forward` (/repo/crypten/nn/module.py:637-746). A module is a function of the list of its inputs; values are of any type `V`, and `asTuple` says which values are
Python tuples. Dictionaries are functions to `Option`, with the insertion order of the graph kept as a list.
-/

namespace CrypTen.Graph

/-- A module added to the graph: its name, the names of its inputs, the attribute `_output_names`, and what it computes (module.py:637-653). -/
structure Node (V : Type) where
  name : String
  inputs : List String
  outputNames : Option (List String)
  run : List V → V

/-- The outcomes other than a result. -/
inductive Err where
  | keyError
  | invalidGraph
  | notATuple
  | wrongLength
  | unconnected
  | wrongNumberOfInputs
  | stillRunning
deriving DecidableEq, Repr

/-- The local variables of `forward` (module.py:661-666). -/
structure St (V : Type) where
  values : String → Option V
  computed : String → Option Bool
  available : String → List Bool

variable {V : Type}

/-- The initial values, before the inputs are marked (module.py:661-666). -/
def initial (nodes : List (Node V)) (inputNames : List String) (args : List V) : St V where
  values k := ((inputNames.zip args).reverse.find? (fun p => p.1 = k)).map Prod.snd
  computed k := if nodes.any (fun nd => nd.name = k) then some false else none
  available k := match nodes.find? (fun nd => nd.name = k) with
    | some nd => nd.inputs.map fun _ => false
    | none => []

/-- `_mark_as_computed(name)` (module.py:668-673): in the list of every node that uses the value, the first occurrence is marked. -/
def markAsComputed (nodes : List (Node V)) (name : String) (s : St V) : St V :=
  { s with
    computed := fun k => if k = name then some true else s.computed k
    available := fun k => match nodes.find? (fun nd => nd.name = k) with
      | some nd => if name ∈ nd.inputs then (s.available k).set (nd.inputs.idxOf name) true else s.available k
      | none => s.available k }

/-- `_find_computable_node()` (module.py:675-680). -/
def findComputable (nodes : List (Node V)) (s : St V) : Option (Node V) := nodes.find? fun nd => (s.available nd.name).all id && decide (s.computed nd.name = some false)

/-- `_clear_unused_values()` (module.py:682-700). -/
def clearUnused (nodes : List (Node V)) (s : St V) : St V :=
  { s with values := fun k => if nodes.any (fun nd => decide (s.computed nd.name = some false) && decide (k ∈ nd.inputs)) then s.values k else none }

/-- `all(computed[output_name] for output_name in self.output_names)` (module.py:735): stops at the first `False`; a missing key is a KeyError. -/
def allComputed (s : St V) : List String → Except Err Bool
  | [] => .ok true
  | o :: os => match s.computed o with
    | none => .error .keyError
    | some false => .ok false
    | some true => allComputed s os

/-- `[values[name] for name in names]` (module.py:708, 736). -/
def fetch (s : St V) : List String → Except Err (List V)
  | [] => .ok []
  | k :: ks => match s.values k with
    | none => .error .keyError
    | some v => match fetch s ks with
      | .ok vs => .ok (v :: vs)
      | .error e => .error e

/-- `values[name] = value; _mark_as_computed(name)` (module.py:719-720, 731-732). -/
def store (nodes : List (Node V)) (s : St V) (kv : String × V) : St V := markAsComputed nodes kv.1 { s with values := fun k => if k = kv.1 then some kv.2 else s.values k }

/-- Compute one node and record its outputs (module.py:708-732). -/
def computeNode (nodes : List (Node V)) (asTuple : V → Option (List V)) (s : St V) (nd : Node V) : Except Err (St V) :=
  match fetch s nd.inputs with
  | .error e => .error e
  | .ok ins =>
    let output := nd.run ins
    match nd.outputNames with
    | none => .ok (store nodes s (nd.name, output))
    | some [o] => if o = nd.name then .ok (store nodes s (nd.name, output)) else .error .invalidGraph
    | some outs => match asTuple output with
      | none => .error .notATuple
      | some vs => if outs.length = vs.length then .ok ((outs.zip vs).foldl (store nodes) s) else .error .wrongLength

/-- The loop (module.py:706-746), for at most `fuel` rounds. -/
def loop (nodes : List (Node V)) (asTuple : V → Option (List V)) (outputNames : List String) : ℕ → St V → Option (Node V) → Except Err (List V)
  | _, _, none => .error .unconnected
  | 0, _, some _ => .error .stillRunning
  | fuel + 1, s, some nd =>
    match computeNode nodes asTuple s nd with
    | .error e => .error e
    | .ok s => match allComputed s outputNames with
      | .error e => .error e
      | .ok true => fetch s outputNames
      | .ok false => loop nodes asTuple outputNames fuel (clearUnused nodes s) (findComputable nodes s)

/-- `Graph.forward(*args)` (module.py:655-746). -/
def forward (nodes : List (Node V)) (asTuple : V → Option (List V)) (inputNames outputNames : List String) (fuel : ℕ) (args : List V) : Except Err (List V) :=
  if args.length = inputNames.length then
    let s := inputNames.foldl (fun s k => markAsComputed nodes k s) (initial nodes inputNames args)
    loop nodes asTuple outputNames fuel s (findComputable nodes s)
  else .error .wrongNumberOfInputs

/-- The modules of `Sequential(f₀, f₁, …)` (module.py:766-788), with arbitrary names instead of the decimal numbers: each takes the previous one's output. -/
def chain (name : ℕ → String) (input : String) (fs : List (V → V)) (default : V) : List (Node V) :=
  fs.mapIdx fun i f => ⟨name i, [if i = 0 then input else name (i - 1)], none, fun vs => f (vs.headD default)⟩

end CrypTen.Graph

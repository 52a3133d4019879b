import Verif.Model.Graph

/-!
# `Sequential`, from modules and from ordered dictionaries

Models `Sequential.__init__` (/repo/crypten/nn/module.py:765-788) and `Graph.forward` (module.py:655-746) on the graphs it builds. For an ordered dictionary the constructor stores the *key* of the previous module
as `input_names`, a string and not a list of strings, so `len`, `in`, `.index` and iteration in `forward` are those of strings. `_output_names` is not set by the constructor and is left out.
-/

namespace CrypTen.SequentialDict

open CrypTen.Graph (Err St)

/-- What is stored in `_graph`: a list of names, or one string. -/
inductive Names where
  | list (l : List String)
  | str (s : String)
deriving DecidableEq

/-- Python's `len` (module.py:664). -/
def Names.len : Names → ℕ
  | .list l => l.length
  | .str s => s.toList.length

/-- Python's `name in value_list` (module.py:672, 690): membership, or being a substring. -/
def Names.has : Names → String → Bool
  | .list l, name => decide (name ∈ l)
  | .str s, name => decide (name.toList <:+: s.toList)

/-- Python's `value_list.index(name)` (module.py:673): the first position, of the element or of the substring. -/
def Names.index : Names → String → ℕ
  | .list l, name => l.idxOf name
  | .str s, name => (List.range (s.toList.length + 1)).findIdx fun i => name.toList.isPrefixOf (s.toList.drop i)

/-- Python's iteration (module.py:708): the elements, or the characters. -/
def Names.iter : Names → List String
  | .list l => l
  | .str s => s.toList.map String.singleton

/-- A module in the graph. -/
structure Entry (V : Type) where
  name : String
  inputs : Names
  run : List V → V

variable {V : Type}

/-- The local variables of `forward` before the inputs are marked (module.py:661-666). -/
def initial (nodes : List (Entry V)) (inputNames : List String) (args : List V) : St V where
  values k := ((inputNames.zip args).reverse.find? (fun p => p.1 = k)).map Prod.snd
  computed k := if nodes.any (fun nd => nd.name = k) then some false else none
  available k := match nodes.find? (fun nd => nd.name = k) with
    | some nd => List.replicate nd.inputs.len false
    | none => []

/-- `_mark_as_computed(name)` (module.py:668-673). -/
def markAsComputed (nodes : List (Entry V)) (name : String) (s : St V) : St V :=
  { s with
    computed := fun k => if k = name then some true else s.computed k
    available := fun k => match nodes.find? (fun nd => nd.name = k) with
      | some nd => if nd.inputs.has name then (s.available k).set (nd.inputs.index name) true else s.available k
      | none => s.available k }

/-- `_find_computable_node()` (module.py:675-680). -/
def findComputable (nodes : List (Entry V)) (s : St V) : Option (Entry V) := nodes.find? fun nd => (s.available nd.name).all id && decide (s.computed nd.name = some false)

/-- `_clear_unused_values()` (module.py:682-700). -/
def clearUnused (nodes : List (Entry V)) (s : St V) : St V :=
  { s with values := fun k => if nodes.any (fun nd => decide (s.computed nd.name = some false) && nd.inputs.has k) then s.values k else none }

/-- Compute one node and record its output (module.py:708-720). -/
def computeNode (nodes : List (Entry V)) (s : St V) (nd : Entry V) : Except Err (St V) :=
  (Graph.fetch s nd.inputs.iter).bind fun ins =>
    .ok (markAsComputed nodes nd.name { s with values := fun k => if k = nd.name then some (nd.run ins) else s.values k })

/-- The loop (module.py:706-746), for at most `fuel` rounds. -/
def loop (nodes : List (Entry V)) (outputNames : List String) : ℕ → St V → Option (Entry V) → Except Err (List V)
  | _, _, none => .error .unconnected
  | 0, _, some _ => .error .stillRunning
  | fuel + 1, s, some nd =>
    match computeNode nodes s nd with
    | .error e => .error e
    | .ok s => match Graph.allComputed s outputNames with
      | .error e => .error e
      | .ok true => Graph.fetch s outputNames
      | .ok false => loop nodes outputNames fuel (clearUnused nodes s) (findComputable nodes s)

/-- `Graph.forward(*args)` (module.py:655-746). -/
def forward (nodes : List (Entry V)) (inputNames outputNames : List String) (fuel : ℕ) (args : List V) : Except Err (List V) :=
  if args.length = inputNames.length then
    let s := inputNames.foldl (fun s k => markAsComputed nodes k s) (initial nodes inputNames args)
    loop nodes outputNames fuel s (findComputable nodes s)
  else .error .wrongNumberOfInputs

/-- An argument of the constructor. -/
inductive Arg (V : Type) where
  | module (f : List V → V)
  | dict (items : List (String × (List V → V)))

inductive InitErr where
  /-- "Module %s already exists." -/
  | moduleExists
  /-- `key` is not bound: an empty dictionary, with none before it -/
  | unbound
deriving DecidableEq, Repr

/-- The local variables of the constructor (module.py:765-788). -/
structure Build (V : Type) where
  nodes : List (Entry V)
  inputNames : Names
  key : Option String
  outputNames : List String

/-- `self.add_module(name, module, input_names)` (module.py:637-650; the name is looked up in the graph). -/
def add (b : Build V) (name : String) (inputs : Names) (f : List V → V) : Except InitErr (Build V) :=
  if b.nodes.any (fun nd => nd.name = name) then .error .moduleExists else .ok { b with nodes := b.nodes ++ [⟨name, inputs, f⟩] }

/-- The modules of one ordered dictionary (module.py:778-780). -/
def addItems : Build V → List (String × (List V → V)) → Except InitErr (Build V)
  | b, [] => .ok b
  | b, (k, f) :: rest => (add b k b.inputNames f).bind fun b => addItems { b with inputNames := .str k, key := some k } rest

/-- One round of the loop over the arguments (module.py:776-788). -/
def addArg (idx : ℕ) (b : Build V) : Arg V → Except InitErr (Build V)
  | .dict items => (addItems b items).bind fun b => match b.key with
    | none => .error .unbound
    | some k => .ok { b with outputNames := [k] }
  | .module f =>
    let inputs := if idx > 0 then .list [toString (idx - 1)] else b.inputNames
    (add b (toString idx) inputs f).bind fun b => .ok { b with inputNames := inputs, outputNames := [toString idx] }

/-- The loop over the arguments (module.py:776-788). -/
def addArgs : ℕ → Build V → List (Arg V) → Except InitErr (Build V)
  | _, b, [] => .ok b
  | idx, b, a :: rest => (addArg idx b a).bind fun b => addArgs (idx + 1) b rest

/-- `Sequential(*module_list)` with the default input name (module.py:765-788). -/
def sequential (args : List (Arg V)) : Except InitErr (Build V) := addArgs 0 ⟨[], .list ["input"], none, ["output"]⟩ args

/-- Build the model and apply it to `x`. `none`: the constructor raises. -/
def apply (args : List (Arg V)) (fuel : ℕ) (x : V) : Option (Except Err (List V)) :=
  match sequential args with
  | .error _ => none
  | .ok b => some (forward b.nodes ["input"] b.outputNames fuel [x])

end CrypTen.SequentialDict

import Verif.Model.Graph

/-!
# The value of a name in a graph of modules

Independent of any evaluation order: a set of modules is all that is needed.
-/

namespace CrypTen.Graph

variable {V : Type}

/-- `Evaluates modules asTuple inputs k v`: recursively evaluating the name `k` gives `v`. `modules` is a set of modules, `inputs` the named arguments. -/
inductive Evaluates (modules : Node V → Prop) (asTuple : V → Option (List V)) (inputs : List (String × V)) : String → V → Prop where
  | input {k v} (h : (k, v) ∈ inputs) : Evaluates modules asTuple inputs k v
  | single {nd : Node V} {vs : List V} (h : modules nd) (hout : nd.outputNames = none ∨ nd.outputNames = some [nd.name])
      (hlen : nd.inputs.length = vs.length) (hin : ∀ p ∈ nd.inputs.zip vs, Evaluates modules asTuple inputs p.1 p.2) : Evaluates modules asTuple inputs nd.name (nd.run vs)
  | tuple {nd : Node V} {vs : List V} {outs : List String} {rs : List V} {k : String} {v : V} (h : modules nd) (hout : nd.outputNames = some outs) (hone : outs.length ≠ 1)
      (hlen : nd.inputs.length = vs.length) (hin : ∀ p ∈ nd.inputs.zip vs, Evaluates modules asTuple inputs p.1 p.2)
      (htup : asTuple (nd.run vs) = some rs) (hlen' : outs.length = rs.length) (hk : (k, v) ∈ outs.zip rs) : Evaluates modules asTuple inputs k v

/-- A graph of single-output modules: names are unique and differ from the inputs, every input of a module is a module or an input of the graph and is used once, and there is no cycle. -/
structure WellFormed (nodes : List (Node V)) (inputNames : List String) : Prop where
  single : ∀ nd ∈ nodes, nd.outputNames = none ∨ nd.outputNames = some [nd.name]
  names_nodup : (nodes.map Node.name).Nodup
  inputs_nodup : inputNames.Nodup
  disjoint : ∀ nd ∈ nodes, nd.name ∉ inputNames
  closed : ∀ nd ∈ nodes, ∀ k ∈ nd.inputs, k ∈ inputNames ∨ ∃ nd' ∈ nodes, nd'.name = k
  once : ∀ nd ∈ nodes, nd.inputs.Nodup
  acyclic : ∃ rank : String → ℕ, ∀ nd ∈ nodes, ∀ nd' ∈ nodes, nd'.name ∈ nd.inputs → rank nd'.name < rank nd.name

end CrypTen.Graph

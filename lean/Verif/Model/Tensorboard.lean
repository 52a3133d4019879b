import Mathlib.Data.List.Basic

/-!
# TensorBoard graphs

Models /repo/crypten/nn/tensorboard.py:24-75 (`graph`), with `Module.named_modules` (/repo/crypten/nn/module.py:105-117), `Module.named_parameters` (module.py:178-196), `Graph.add_module` (module.py:591-608 and 634-653) and the construction
of `Sequential` (module.py:766-788). Modules are objects with an identity. Texts that Python computes from a class or a size are given: `cls` is `str(type(module))`, and each parameter has the text `str(parameter.size())`. The encoding of
texts as bytes is left out, as are the versions in the result.
-/

namespace CrypTen.Tensorboard

/-- A module: identity, `str(type(module))`, `_parameters` (name and size) and `_modules`. -/
inductive Obj where
  | mk (id : ℕ) (cls : String) (params : List (String × String)) (children : List (String × Obj))

namespace Obj
/-- `str(type(module))` -/
def cls : Obj → String
  | .mk _ c _ _ => c
/-- `_modules` (module.py:30) -/
def children : Obj → List (String × Obj)
  | .mk _ _ _ cs => cs
end Obj

mutual
/-- `named_modules(memo, prefix)` (module.py:105-117): the modules with their names, and `memo` afterwards. -/
def namedModules (memo : List ℕ) (pre : String) : Obj → List (String × Obj) × List ℕ
  | .mk id c ps cs =>
    if id ∈ memo then ([], memo)
    else
      let r := namedChildren (id :: memo) pre cs
      ((pre, .mk id c ps cs) :: r.1, r.2)
/-- The loop over the children (module.py:112-117). -/
def namedChildren (memo : List ℕ) (pre : String) : List (String × Obj) → List (String × Obj) × List ℕ
  | [] => ([], memo)
  | (name, m) :: cs =>
    let a := namedModules memo (pre ++ (if pre = "" then "" else ".") ++ name) m
    let b := namedChildren a.2 pre cs
    (a.1 ++ b.1, b.2)
end

/-- `name if prefix is None else prefix + "." + name` (module.py:191, 195) -/
def under (pre : Option String) (name : String) : String :=
  match pre with
  | none => name
  | some p => p ++ "." ++ name

mutual
/-- `named_parameters(recurse=True, prefix)` (module.py:178-196). -/
def namedParameters (pre : Option String) : Obj → List (String × String)
  | .mk _ _ ps cs => ps.map (fun p => (under pre p.1, p.2)) ++ namedParametersChildren pre cs
/-- The loop over the children (module.py:194-196). -/
def namedParametersChildren (pre : Option String) : List (String × Obj) → List (String × String)
  | [] => []
  | (name, m) :: cs => namedParameters (some (under pre name)) m ++ namedParametersChildren pre cs
end

/-- A `Graph`: the object, `input_names`, and `_graph`. A value of `_graph` is a list of names; where the code stores a text instead (`Sequential` with a dictionary), iterating over it gives its characters. -/
structure Graph where
  self : Obj
  inputs : List String
  graph : List (String × List String)

/-- A model: a `Graph` or another module. -/
inductive Model where
  | graph (g : Graph)
  | module (m : Obj)

/-- `NodeDef`: name, operation, inputs, and the text of the attribute. -/
structure NodeDef where
  name : String
  op : String
  input : List String
  attr : Option String
deriving DecidableEq

/-- `KeyError` -/
structure KeyError where
  key : String
deriving DecidableEq

/-- `d[key]` in a dictionary filled in this order: the last value counts. -/
def get {α : Type} (d : List (String × α)) (k : String) : Except KeyError α :=
  match d.reverse.find? fun p => decide (p.1 = k) with
  | some p => .ok p.2
  | none => .error ⟨k⟩

/-- `str(type(module))[26:-2]` (tensorboard.py:38) -/
def short (cls : String) : String := String.ofList ((cls.toList.drop 26).dropLast.dropLast)

/-- `mapping` (tensorboard.py:35-39) -/
def mapping (inputs : List String) (modules : List (String × Obj)) : List (String × String) := inputs.map (fun i => (i, i)) ++ modules.map fun p => (p.1, short p.2.cls ++ "_" ++ p.1)

/-- `"; ".join(parameters)` -/
def join : List String → String
  | [] => ""
  | [a] => a
  | a :: b :: l => a ++ "; " ++ join (b :: l)

/-- The node for one entry of `_graph` (tensorboard.py:52-72). -/
def nodeOf (modules : List (String × Obj)) (mapping : List (String × String)) (e : String × List String) : Except KeyError NodeDef := do
  let m ← get modules e.1
  let input ← e.2.mapM (get mapping)
  let name ← get mapping e.1
  return ⟨name, m.cls, input, some (join ((namedParameters none m).map fun p => p.1 ++ ": " ++ p.2))⟩

/-- `graph` for a `Graph` (tensorboard.py:34-75). -/
def graphOf (g : Graph) : Except KeyError (List NodeDef) := do
  let modules := (namedModules [] "" g.self).1
  let mapping := mapping g.inputs modules
  let vars ← g.inputs.mapM fun i => do
    let name ← get mapping i
    return (⟨name, "Variable", [], none⟩ : NodeDef)
  let nodes ← g.graph.mapM (nodeOf modules mapping)
  return vars ++ nodes

/-- `str(type(Graph(...)))` -/
def graphClass : String := "<class 'crypten.nn.module.Graph'>"

/-- `graph(model)` (tensorboard.py:24-75): a module that is no `Graph` becomes the only module of one (lines 29-32), which is a new object. -/
def graph (fresh : ℕ) : Model → Except KeyError (List NodeDef)
  | .graph g => graphOf g
  | .module m => graphOf ⟨.mk fresh graphClass [] [("output", m)], ["input"], [("output", ["input"])]⟩

/-- `Sequential(*modules)` (module.py:783-788): module `i` takes the result of module `i - 1`. -/
def sequential (id : ℕ) (modules : List Obj) (inputs : List String := ["input"]) : Graph :=
  ⟨.mk id "<class 'crypten.nn.module.Sequential'>" [] (modules.zipIdx.map fun p => (toString p.2, p.1)), inputs, modules.zipIdx.map fun p => (toString p.2, if p.2 = 0 then inputs else [toString (p.2 - 1)])⟩

/-- `Sequential(OrderedDict(...))` (module.py:778-782): `input_names = key` is a text. -/
def sequentialDict (id : ℕ) (modules : List (String × Obj)) (inputs : List String := ["input"]) : Graph :=
  ⟨.mk id "<class 'crypten.nn.module.Sequential'>" [] modules, inputs, modules.zipIdx.map fun p => (p.1.1, if p.2 = 0 then inputs else ((modules[p.2 - 1]?).map fun q => q.1.toList.map Char.toString).getD [])⟩

end CrypTen.Tensorboard

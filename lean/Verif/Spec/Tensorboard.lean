import Verif.Model.Tensorboard

/-!
# What a graph should show

One node per input and one per module of the model, with the module's class, its parameters, and edges from the nodes of its operands.
-/

namespace CrypTen.Tensorboard

/-- A path, with dots. -/
def dotted : List String → String
  | [] => ""
  | [a] => a
  | a :: b :: l => a ++ "." ++ dotted (b :: l)

mutual
/-- All modules below a module, itself included, with their paths. -/
def below (path : List String) : Obj → List (List String × Obj)
  | .mk id c ps cs => (path, .mk id c ps cs) :: belowChildren path cs
/-- The same for the children. -/
def belowChildren (path : List String) : List (String × Obj) → List (List String × Obj)
  | [] => []
  | (name, m) :: cs => below (path ++ [name]) m ++ belowChildren path cs
end

/-- The parameters of a module. -/
def Obj.params : Obj → List (String × String)
  | .mk _ _ ps _ => ps

/-- The identity of a module. -/
def Obj.id : Obj → ℕ
  | .mk i _ _ _ => i

/-- The parameters of all modules below a module, with their paths and sizes. -/
def parameters (m : Obj) : List (String × String) := (below [] m).flatMap fun q => q.2.params.map fun p => (dotted (q.1 ++ [p.1]), p.2)

/-- The name of a node: inputs keep their names, modules have their class in front. -/
def label (g : Graph) (name : String) : String :=
  match g.self.children.find? fun p => decide (p.1 = name) with
  | some p => short p.2.cls ++ "_" ++ name
  | none => name

/-- The node of an input. -/
def Variable (i : String) : NodeDef := ⟨i, "Variable", [], none⟩

/-- Node `v` shows module `m`, which is called `e.1` and takes the values `e.2`. -/
def Shows (g : Graph) (e : String × List String) (v : NodeDef) : Prop :=
  ∃ m, (e.1, m) ∈ g.self.children ∧ v = ⟨short m.cls ++ "_" ++ e.1, m.cls, e.2.map (label g), some ("; ".intercalate ((parameters m).map fun p => p.1 ++ ": " ++ p.2))⟩

/-- The conditions: no module is used in two places, no two modules (or inputs) have the same name, and operands are inputs or results of modules, not single results of a module that has several. -/
structure Plain (g : Graph) : Prop where
  once : ((below [] g.self).map fun q => q.2.id).Nodup
  names : ((below [] g.self).map fun q => dotted q.1).Nodup
  inputs : ∀ i ∈ g.inputs, i ∉ (below [] g.self).map fun q => dotted q.1
  modules : ∀ e ∈ g.graph, e.1 ∈ g.self.children.map Prod.fst
  operands : ∀ e ∈ g.graph, ∀ x ∈ e.2, x ∈ g.inputs ∨ x ∈ g.self.children.map Prod.fst
  nonempty : "" ∉ (below [] g.self).flatMap fun q => q.2.children.map Prod.fst

end CrypTen.Tensorboard

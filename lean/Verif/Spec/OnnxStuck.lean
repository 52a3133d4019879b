import Verif.Spec.OnnxGraph

/-!
# Values that a converted graph never computes
-/

namespace CrypTen.OnnxGraph
variable {V : Type}

/-- A value that is not computed: nothing defines it (the empty name of an optional input that is left out, for instance); or it is a result of a node that uses a value twice; or of a node that uses such a value. -/
inductive Stuck (g : GraphProto V) : String → Prop
  | undefined {x : String} : x ∉ g.inputs → x ∉ g.initializers.map Prod.fst → (∀ nd ∈ g.nodes, x ∉ nd.outputs) → Stuck g x
  | repeated {nd : NodeProto V} {o : String} : nd ∈ g.nodes → o ∈ nd.outputs → ¬ nd.inputs.Nodup → Stuck g o
  | operand {nd : NodeProto V} {o x : String} : nd ∈ g.nodes → o ∈ nd.outputs → x ∈ nd.inputs → Stuck g x → Stuck g o

/-- Every name is defined once, and no input has an initializer. -/
def GraphProto.Once (g : GraphProto V) : Prop := (g.inputs ++ g.initializers.map Prod.fst ++ g.nodes.flatMap NodeProto.outputs).Nodup

end CrypTen.OnnxGraph

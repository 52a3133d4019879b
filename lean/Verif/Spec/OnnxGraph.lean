import Verif.Model.OnnxGraph

/-!
# What an ONNX graph computes

After the ONNX specification (IR, "Graphs"): the nodes are sorted topologically, every name is defined once, a node reads its inputs and writes its outputs, further outputs of the operator that
are not named are dropped. An input that is also an initializer has the initializer as its value unless the caller gives another.
-/

namespace CrypTen.OnnxGraph
variable {V : Type}

/-- The values of names. -/
abbrev Env (V : Type) := String → Option V

/-- Define names. -/
def define (env : Env V) : List (String × V) → Env V
  | [] => env
  | (k, v) :: l => define (fun j => if j = k then some v else env j) l

/-- All values, if all are defined. -/
def lookupAll (env : Env V) : List String → Option (List V)
  | [] => some []
  | k :: ks => (env k).bind fun v => (lookupAll env ks).map (v :: ·)

/-- Execute the nodes in their order. `op` is the meaning of a node: all outputs of its operator. -/
def execute (op : NodeProto V → List V → List V) : List (NodeProto V) → Env V → Option (Env V)
  | [], env => some env
  | nd :: nds, env => (lookupAll env nd.inputs).bind fun ins => execute op nds (define env (nd.outputs.zip (op nd ins)))

/-- The inputs that the caller has to give. -/
def GraphProto.required (g : GraphProto V) : List String := g.inputs.filter fun k => k ∉ g.initializers.map Prod.fst

/-- The value of the output named `out` for arguments for the required inputs. -/
def GraphProto.value (g : GraphProto V) (op : NodeProto V → List V → List V) (args : List V) (out : String) : Option V :=
  (execute op g.nodes (define (define (fun _ => none) g.initializers) (g.required.zip args))).bind fun env => env out

/-- Every name is defined once. -/
def GraphProto.SingleAssignment (g : GraphProto V) : Prop :=
  (g.required ++ g.initializers.map Prod.fst ++ g.nodes.flatMap NodeProto.outputs).Nodup

/-- The converter makes of each node a layer that computes the first output of the operator. -/
def GraphProto.LayersCorrect (g : GraphProto V) (op : NodeProto V → List V → List V) : Prop :=
  ∀ nd ∈ g.nodes, ∃ f, nd.layer = some f ∧ ∀ ins, (op nd ins).head? = some (f ins)

end CrypTen.OnnxGraph

import Verif.Model.Graph

/-!
# Conversion of ONNX graphs

Models `_to_crypten`, `_get_input_output_names` and `_get_model_or_module` (/repo/crypten/nn/onnx_converter.py:161-238). The parsed protobuf is the input; what a single node is converted to
(`_get_operator_class`, `from_onnx`, modelled in `Onnx`) is part of the node here: a function of its inputs, or nothing if the conversion raises.
-/

namespace CrypTen.OnnxGraph
open CrypTen.Graph

/-- A node of an ONNX graph, with the layer that CrypTen makes of it (onnx_converter.py:178-184). -/
structure NodeProto (V : Type) where
  opType : String
  inputs : List String
  outputs : List String
  layer : Option (List V → V)

/-- An ONNX graph: names of the inputs and outputs, parameters, nodes. -/
structure GraphProto (V : Type) where
  inputs : List String
  outputs : List String
  initializers : List (String × V)
  nodes : List (NodeProto V)

/-- What the conversion may raise. -/
inductive ImportErr where
  | noInput
  | notOneOutput
  | unsupported
  | noNodeOutput
  | moduleExists
deriving DecidableEq, Repr

variable {V : Type}

/-- `_get_input_output_names` (onnx_converter.py:214-222). -/
def inputOutputNames (g : GraphProto V) : Except ImportErr (List String × String) :=
  match g.inputs, g.outputs with
  | [], _ => .error .noInput
  | ins, [out] => .ok (ins, out)
  | _, _ => .error .notOneOutput

/-- `Graph.add_module` (/repo/crypten/nn/module.py:637-653): the name must be new. -/
def addModule (nodes : List (Node V)) (nd : Node V) : Except ImportErr (List (Node V)) :=
  if nodes.any (fun x => x.name = nd.name) then .error .moduleExists else .ok (nodes ++ [nd])

/-- The module of a parameter (onnx_converter.py:171-174; `Parameter.forward` returns the tensor whatever the input, module.py:953-954). -/
def parameter (p : String × V) : Node V := ⟨p.1, [], none, fun _ => p.2⟩

/-- The module of a node (onnx_converter.py:178-192): named like its first output; of `Dropout`, but of no other operator, the further outputs are dropped. -/
def moduleOf (nd : NodeProto V) : Except ImportErr (Node V) :=
  match nd.layer with
  | none => .error .unsupported
  | some f => match nd.outputs with
    | [] => .error .noNodeOutput
    | o :: rest => .ok ⟨o, nd.inputs, some (if nd.opType = "Dropout" then [o] else o :: rest), f⟩

/-- The loop over the parameters (onnx_converter.py:171-174). -/
def addParameters : List (String × V) → List (Node V) → Except ImportErr (List (Node V))
  | [], nodes => .ok nodes
  | p :: ps, nodes => (addModule nodes (parameter p)).bind (addParameters ps)

/-- The loop over the nodes (onnx_converter.py:177-192). -/
def addNodes : List (NodeProto V) → List (Node V) → Except ImportErr (List (Node V))
  | [], nodes => .ok nodes
  | nd :: nds, nodes => (moduleOf nd).bind fun m => (addModule nodes m).bind (addNodes nds)

/-- A converted model: the arguments of `Graph` and its modules. -/
structure Model (V : Type) where
  inputNames : List String
  outputName : String
  nodes : List (Node V)

/-- `_to_crypten` (onnx_converter.py:161-196). `_get_model_or_module` returns the graph itself in every case: `modules()` includes the graph, so that it finds one module only if there are no others
(onnx_converter.py:225-233, module.py:95-117). -/
def toCrypten (g : GraphProto V) : Except ImportErr (Model V) :=
  (inputOutputNames g).bind fun io =>
    (addParameters g.initializers []).bind fun nodes =>
      (addNodes g.nodes nodes).bind fun nodes => .ok ⟨io.1, io.2, nodes⟩

/-- The forward pass of the converted model (module.py:655-746). -/
def Model.forward (m : Model V) (asTuple : V → Option (List V)) (fuel : ℕ) (args : List V) : Except Err (List V) :=
  Graph.forward m.nodes asTuple m.inputNames [m.outputName] fuel args

end CrypTen.OnnxGraph

import Verif.Model.Ring
import Verif.Model.Sharing
import Verif.Lemmas.Xor
import Verif.Lemmas.Sharing
import Verif.Props.Sharing
import Verif.Lemmas.Int64
import Verif.Model.Encoder
import Verif.Props.Encoder
import Verif.Model.Torch
import Verif.Model.Arith
import Verif.Spec.Linear
import Verif.Lemmas.Linear
import Verif.Props.Linear
import Verif.Model.Binary
import Verif.Lemmas.Binary
import Verif.Model.Beaver
import Verif.Props.Beaver
import Verif.Model.Truncate
import Verif.Props.Replicated
import Verif.Spec.Truncate
import Verif.Lemmas.Truncate
import Verif.Props.Truncate
import Verif.Model.Proto
import Verif.Spec.Proto
import Verif.Lemmas.Proto
import Verif.Model.Circuit
import Verif.Lemmas.Spk
import Verif.Props.Circuit
import Verif.Model.ArithFunc
import Verif.Model.Convert
import Verif.Model.Logic
import Verif.Props.ArithFunc
import Verif.Props.Convert
import Verif.Props.Logic
import Verif.Spec.Logic
import Verif.Spec.Value
import Verif.Model.Maximum
import Verif.Props.Maximum
import Verif.Props.Sampling
import Verif.Spec.Sampling
import Verif.Model.CatStack
import Verif.Model.Functions
import Verif.Props.CatStack
import Verif.Props.FixedPoint
import Verif.Props.Power
import Verif.Props.Activation
import Verif.Props.Approx
import Verif.Model.Providers
import Verif.Model.TupleCache
import Verif.Props.Providers
import Verif.Props.TupleCache
import Verif.Spec.Providers
import Verif.Model.Autograd
import Verif.Model.Context
import Verif.Props.Autograd
import Verif.Props.Context
import Verif.Spec.Autograd
import Verif.Spec.Context
import Verif.Lemmas.Gradient
import Verif.Model.Broadcast
import Verif.Model.Gradients
import Verif.Props.Broadcast
import Verif.Props.Gradients
import Verif.Spec.Broadcast
import Verif.Spec.Gradient
import Verif.Model.Serial
import Verif.Model.Threads
import Verif.Props.Serial
import Verif.Props.Threads
import Verif.Spec.Serial
import Verif.Spec.Threads
import Verif.Model.Graph
import Verif.Model.Sgd
import Verif.Props.Graph
import Verif.Props.Sgd
import Verif.Spec.Graph
import Verif.Spec.Sgd
import Verif.Model.NnModule
import Verif.Props.NnModule
import Verif.Props.StateDict
import Verif.Spec.NnModule
import Verif.Model.Alias
import Verif.Props.Alias
import Verif.Spec.Alias
import Verif.Model.Cuda
import Verif.Spec.Cuda
import Verif.Model.Pool
import Verif.Props.Cuda
import Verif.Props.Pool
import Verif.Spec.Pool
import Verif.Lemmas.Prime
import Verif.Model.OT
import Verif.Props.OT
import Verif.Spec.OT
import Verif.Model.DPSplit
import Verif.Props.DPSplit
import Verif.Spec.DPSplit
import Verif.Model.Dropout
import Verif.Props.Dropout
import Verif.Model.CommStats
import Verif.Props.CommStats
import Verif.Spec.CommStats
import Verif.Lemmas.NdIdx
import Verif.Lemmas.ShapeGrad
import Verif.Model.Shape
import Verif.Props.ShapeGrad
import Verif.Props.ShapeGrad2
import Verif.Spec.ShapeGrad
import Verif.Lemmas.Conv
import Verif.Lemmas.Conv2
import Verif.Model.Conv
import Verif.Props.Conv
import Verif.Lemmas.Adaptive
import Verif.Model.Adaptive
import Verif.Model.MaxPoolGrad
import Verif.Props.Adaptive
import Verif.Props.MaxPoolGrad
import Verif.Spec.Adaptive
import Verif.Lemmas.Onnx
import Verif.Model.Onnx
import Verif.Props.Onnx1
import Verif.Props.Onnx2
import Verif.Props.Onnx3
import Verif.Spec.Onnx
import Verif.Model.BatchNorm
import Verif.Props.BatchNorm
import Verif.Props.BatchNormGrad
import Verif.Spec.BatchNorm
import Verif.Model.Recording
import Verif.Props.Detached
import Verif.Props.Recording
import Verif.Spec.Recording
import Verif.Model.GradBuffers
import Verif.Model.OnnxGraph
import Verif.Props.GradBuffers
import Verif.Props.OnnxGraph
import Verif.Spec.GradBuffers
import Verif.Spec.OnnxGraph
import Verif.Model.Launch
import Verif.Props.Launch
import Verif.Spec.Launch
import Verif.Model.Program
import Verif.Props.Program
import Verif.Spec.Program
import Verif.Model.SequentialDict
import Verif.Model.Validation
import Verif.Props.SequentialDict
import Verif.Props.Validation
import Verif.Spec.SequentialDict
import Verif.Spec.Validation
import Verif.Model.Session
import Verif.Props.Session
import Verif.Spec.Session
import Verif.Model.ModuleHeap
import Verif.Props.ModuleHeap
import Verif.Spec.ModuleHeap
import Verif.Lemmas.Privacy
import Verif.Lemmas.PrivacyBase
import Verif.Lemmas.PrivacyFun
import Verif.Lemmas.PrivacyOps
import Verif.Props.Privacy
import Verif.Spec.Privacy
import Verif.Model.Attr
import Verif.Props.Attr
import Verif.Spec.Attr
import Verif.Spec.Loss
import Verif.Lemmas.Failure
import Verif.Model.Loss
import Verif.Props.Loss
import Verif.Spec.Failure
import Verif.Props.Failure
import Verif.Lemmas.Export
import Verif.Model.Export
import Verif.Props.Export
import Verif.Spec.Export
import Verif.Model.Files
import Verif.Model.SplitSession
import Verif.Props.SplitSession
import Verif.Spec.Files
import Verif.Spec.SplitSession
import Verif.Props.Files
import Verif.Model.Randn
import Verif.Props.Randn
import Verif.Spec.Randn
import Verif.Model.SgdShares
import Verif.Props.SgdShares
import Verif.Spec.SgdShares
import Verif.Model.OnnxOps
import Verif.Props.Onnx4
import Verif.Spec.OnnxOps
import Verif.Model.Copies
import Verif.Props.Copies
import Verif.Spec.Copies
import Verif.Lemmas.Chebyshev
import Verif.Model.Chebyshev
import Verif.Props.Chebyshev
import Verif.Model.Division
import Verif.Props.Division
import Verif.Spec.Division
import Verif.Props.Reciprocal
import Verif.Spec.Reciprocal
import Verif.Props.Sigmoid
import Verif.Model.Calls
import Verif.Model.Recorded
import Verif.Props.Calls
import Verif.Props.Recorded
import Verif.Props.Recorded2
import Verif.Model.Operators
import Verif.Props.Operators
import Verif.Props.Softmax
import Verif.Model.BinaryTensor
import Verif.Props.BinaryTensor
import Verif.Spec.BinaryTensor
import Verif.Model.CudaTensor
import Verif.Props.CudaTensor
import Verif.Spec.CudaTensor
import Verif.Props.CosSin
import Verif.Props.InvSqrt
import Verif.Spec.InvSqrt
import Verif.Model.Layers
import Verif.Model.Registry
import Verif.Props.Layers
import Verif.Props.Registry
import Verif.Spec.Layers
import Verif.Spec.Registry
import Verif.Props.LogDefault
import Verif.Props.LogShares
import Verif.Props.PolyShares
import Verif.Spec.LogShares
import Verif.Spec.PolyShares
import Verif.Model.Network
import Verif.Props.Lipschitz
import Verif.Props.LogUses
import Verif.Props.Network
import Verif.Spec.Network
import Verif.Props.Quiet
import Verif.Model.Svm
import Verif.Props.Svm
import Verif.Spec.Svm
import Verif.Model.Regression
import Verif.Props.Regression
import Verif.Spec.Regression
import Verif.Model.Moving
import Verif.Props.Moving
import Verif.Spec.Moving
import Verif.Model.Logistic
import Verif.Props.Logistic
import Verif.Spec.Logistic
import Verif.Model.Backprop
import Verif.Props.Backprop
import Verif.Props.BackpropDeriv
import Verif.Spec.Backprop
import Verif.Model.Training
import Verif.Props.Training
import Verif.Spec.Training
import Verif.Props.TrainPrivacy
import Verif.Spec.TrainPrivacy
import Verif.Model.SplitShares
import Verif.Props.SplitShares
import Verif.Spec.SplitShares
import Verif.Model.CnnExample
import Verif.Props.CnnExample
import Verif.Spec.CnnExample
import Verif.Model.Tensorboard
import Verif.Props.Tensorboard
import Verif.Spec.Tensorboard
import Verif.Props.OnnxStuck
import Verif.Spec.OnnxStuck
import Verif.Model.Meters
import Verif.Props.Meters
import Verif.Spec.Meters
import Verif.Props.CnnSample
import Verif.Props.SamplingFixed
import Verif.Props.TensorboardSeq

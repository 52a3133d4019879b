# CrypTen in Lean 4: design of the formal model

The subject is facebookresearch/CrypTen (source in `/repo`, read as text only). The model and the proofs are in `lean/Verif/`.

* `Verif/Model/*.lean`  – the model of the Python code, function by function; every definition cites the file and lines it models and says where it simplifies.
* `Verif/Spec/*.lean`   – small specifications: what the API promises, in ordinary mathematics.
* `Verif/Lemmas/*.lean` – auxiliary lemmas.
* `Verif/Props/*.lean`  – the property theorems, named `Cxx_...`; beside them `example`s that meet their hypotheses.
* `properties.jsonl` – the properties in English; `MANIFEST.json` – status and theorems of each; `seeded/LOG.jsonl` – wrong programs tried against the theorems.

A theorem with suffix `_wrong` proves that the code violates the property (a concrete witness, or a formula for what it does instead). A theorem with suffix `_partial` proves the property under
restrictions that the property does not mention; the restriction is in its docstring and in the manifest.

## Trusted base

* Lean 4.33.0's kernel. Mathlib is used as a library of kernel-checked theorems. No `native_decide`, no `bv_decide`, no axioms of our own, no `sorry`.
* Axioms: every theorem depends on at most `propext`, `Classical.choice`, `Quot.sound` (table at the end).
* The reading of the Python code recorded in the model's comments. Nothing connects the model to the code mechanically.
* torch primitives have their documented meaning: `int64` arithmetic is `BitVec 64` (wrap-around); `div(rounding_mode="trunc")` is division of the signed values rounded towards zero; indexing, reshaping,
  `gather`, `scatter`, `cumsum` are functions on indices. A `torch.Generator` is an arbitrary deterministic state machine (`Prng`): no theorem depends on its output function. Where a theorem speaks of
  distributions, it counts the assignments of the random words.
* Floating-point: numbers that the user passes, and coefficients in the code, are exact rationals (or reals in the analytic parts); the rounding of float products inside `encode`, of the final
  division in `decode` and of Python float constants is not modelled. Exceptions: the GPU arithmetic (C47) is modelled with IEEE rounding to 53 bits.
* Parties run the same program in lock step; a protocol is a function on the vector of all parties' local states; opening is the sum or XOR of the parties' words. Interleavings are modelled for the
  in-process communicator (C36, C37), the context managers (C40, C41) and the generators (C57).
* The provider's tuples are an arbitrary stream of *valid* tuples (`Tuples.Valid`); that the providers produce valid tuples is C33, C34.

## How protocols are modelled

`Model/Ring`, `Model/Torch`: words, tensors as functions on index sets, torch functions. `Model/Proto`: a protocol `Proto n α` consumes the tuple stream and returns shares of all parties; its ghost
component `good` collects, for every division by a public number, that the secret plus the mask did not wrap (for three and more parties this fails for `|x|` of the `2^64` masks, C15; for two parties for
`|x| + 1` shares, C14). `Sat p Q` says: for all valid tuple streams and all counter positions, if the run is good then `Q` holds of the result; `SatX p Q` says the same without the proviso, for
protocols that do not divide. `AST n ι` is an `ArithmeticSharedTensor`: shares and scale; `AST.value` is what it decodes to.

The functions of `common/functions` are written in Python against the methods of a tensor type. `Model/Functions` does the same: one program text, run with `mpcOps` (shares) or `exactOps K` (an ordered
field), so that the statements of C26–C29, C53 about exact arithmetic are about the same text that runs on shares.

## What is modelled

| file of /repo/crypten | modelled | not modelled |
|---|---|---|
| `__init__.py` | seed setup and synchronisation, device generators (`Sharing`), `load_from_party` (`Serial`), thread mode seeds, `init`/`init_thread`/`uninit` (`Session`), types of encrypted tensors (`Registry`), `cat`/`stack` (`CatStack`, `Shape`), `print`/`log`, `save`/`load` for every schedule (`Files`) | `where` on plain tensors |
| `encoder.py`, `common/util.py` | encode, decode, `nearest_integer_division`, `count_wraps` (`Encoder`, `Truncate`), `_grad_input_padding` (`Conv`), `chebyshev_series` (`Chebyshev`) | NaN/inf checks, `ConfigBase` helpers |
| `common/rng.py`, `common/serial.py` | all (`Sharing`, `Serial`; pickle opcodes as a stack machine) | the byte-level pickle format |
| `common/functions/*` | `logic`, `maximum`, `power`, `approximations`, `sampling` (`rand`, `randn`, `bernoulli`, `weighted_index`), `regular` (linear operations, `prod`, `mean`, `var`, `cat`, `stack`), `dropout`, `pooling` (`max_pool2d`, `avg_pool2d` via C47) `adaptive_avg_pool2d`, `adaptive_max_pool2d` with their modules, `_max_pool2d_backward` (`Logic`, `Maximum`, `Functions`, `CatStack`, `Dropout`, `Pool`, `Adaptive`, `MaxPoolGrad`, `Randn`) | |
| `communicator/*` | statistics (`CommStats`), in-process communicator with threads (`Threads`), creation and shutdown (`Session`) | torch.distributed itself (assumed to deliver) |
| `config/config.py` | attribute access, `temp_override` (`Context`) | YAML parsing (omegaconf) |
| `cryptensor.py` | gradient mode (`Context`), the tape and `backward` (`Autograd`), how calls are recorded (`Recording`), operators and subscripts (`Operators`), the storage of gradients (`GradBuffers`), forward and backward passes on shares (`Backprop`), training loops (`Training`) | lookup of methods by name, printing |
| `gradients.py` | forward/backward pairs of the arithmetic, activation, reduction, indexing, norm, loss, batchnorm, dropout classes; `_inverse_broadcast` (`Gradients`, `Broadcast`, `Dropout`); re-arranging, selecting, padding, joining and summing classes on tensors of any rank (`Shape`); conv1d, conv2d, avg_pool2d (`Conv`); max_pool2d (`MaxPoolGrad`); batchnorm in both modes (`Gradients`), the forward functions on shares and their parameter lists (`Recorded`, `Calls`) | – |
| `cuda/cuda_tensor.py` | block products, conv, avg_pool (`Cuda`), operators, methods and `__torch_function__` (`CudaTensor`) | views, floating point results, devices |
| `mpc/mpc.py` | `rand`, comparisons, `div`/`mul`/… on arithmetic shares (`Logic`, `Maximum`, `ArithFunc`), `to`, `cuda`, `cpu`, `from_shares` (`Moving`) | `ptype` conversions beyond `A2B`/`B2A`, `compare` dispatch, printing |
| `mpc/primitives/*` | arithmetic, binary, beaver, circuit, converters, replicated, base OT (`Arith`, `ArithFunc`, `Division`, `Alias`, `Copies`, `Binary`, `BinaryTensor`, `Beaver`, `Circuit`, `Convert`, `Truncate`, `OT`) | `binary.gather/scatter` besides indexing |
| `mpc/provider/*` | first party, third party, tuple cache (`Providers`, `TupleCache`) | homomorphic provider (all methods raise) |
| `nn/module.py` | Linear, MatMul, Conv1d, Conv2d (`Layers`), `Module` state, encryption, state dicts, `update_parameters`, `Graph`, `Sequential` (`NnModule`, `Graph`, `Sgd`), `to_pytorch` (`Export`), sharing of modules and parameters (`ModuleHeap`), moving between devices, `set_parameter_from_shares` (`Moving`), attribute access and registration, `ModuleList`, `ModuleDict` (`Attr`); all of `nn/loss.py` (`Loss`); `from_onnx` and `forward` of 28 ONNX layers (`Onnx`, `OnnxOps`); adaptive pooling (`Adaptive`); dropout (`Dropout`); batch normalisation (`BatchNorm`) | element-wise layers that only call the tensor function of the same name; recurrent layers |
| `nn/privacy/dp_split.py` | labels, noise, loss, both backward protocols (`DPSplit`), sizes and caches (`SplitSession`), the gradient of the last layer on shares (`SplitShares`) | `full_jacobian` on shares |
| `optim/*` | SGD on exact numbers (`Sgd`) and on shares (`SgdShares`) | `Optimizer.add_param_group` checks |
| `nn/onnx_converter.py` | `_get_operator_class`, the name table (`Onnx`), the graph construction (`OnnxGraph`), `from_pytorch` (`Export`) | parsing of the protobuf, `_export_pytorch_model` |
| `mpc/context.py` | all (`Launch`) | what the parties exchange while they run; `init`/`uninit` in the parent |
| `debug/` | `register_validation`, `validate_correctness` (`Validation`) | printing and logging |
| `examples/mpc_linear_svm/mpc_linear_svm.py` | `train_linear_svm`, `evaluate_linear_svm` (`Svm`) | printing, timing, drawing of random data |
| `examples/mpc_autograd_cnn/mpc_autograd_cnn.py` | encryption, `train_encrypted`, `CNN` on shares (`CnnExample`) | preprocessing of the images, printing, a last batch of another size |
| `nn/tensorboard.py` | `graph` (`Tensorboard`) | `SummaryWriter` |
| `examples/meters.py`, `accuracy` and `validate` of `mpc_cifar` and `tfe_benchmarks`, the loop of `mpc_imagenet` | the reported accuracies (`Meters`) | losses, times, data sets |
| `models/`, other `examples/` | – | all |

## Per property

| id | property | status | where | how, and what is missing |
|---|---|---|---|---|
| C01 | Encrypting a tensor and revealing it gives back the encoded tensor | proved | `Sharing` | Invariant over generator histories; telescoping sum over the ring of parties.  |
| C02 | Zero-shares of all parties cancel for every request history | proved | `Sharing` | Invariant over request histories.  |
| C03 | Binary (XOR) sharing round-trips | proved | `Beaver`, `Sharing` | As C01 with XOR.  |
| C04 | Any coalition missing one party learns nothing from the shares | partial | `Sharing` | Bijection between mask assignments; witness for the sampler. Perfect secrecy is proved for uniform masks and all coalitions; the additional claim for the sampler in use is refuted (its range excludes 2^63-1). |
| C05 | Fixed-point encode/decode round trip is within one unit of the scale | proved | `Encoder` | Integer arithmetic.  |
| C06 | Decoding returns exactly encoded/scale for every 64-bit value | partial | `Encoder` | Exact characterisation. Exactness is refuted (negative values not divisible by the scale); the exact characterisation, the set where it holds and the error bound are proved. |
| C07 | nearest_integer_division rounds to nearest | partial | `Encoder` | Integer arithmetic. Proved where doubling the remainder does not overflow; refuted beyond. |
| C08 | Linear operations on encrypted tensors are exact ring operations on the secrets | proved | `Linear` | Linearity of the local maps.  |
| C09 | Beaver products reveal the product of the secrets | proved | `Beaver` | Ring algebra over arbitrary bilinear maps.  |
| C10 | Beaver square reveals the square | proved | `Beaver` | Ring algebra.  |
| C11 | The active-security check accepts every correct triple and only fails on incorrect ones | partial | `Beaver` | Algebra; witnesses. Elementwise products only; refuted for matmul, and for errors that are multiples of 2^63. |
| C12 | AND, OR and single-bit B2A protocols are correct on every sharing | proved | `Beaver` | Bitwise algebra.  |
| C13 | Openings made by the Beaver protocols leak nothing | proved | `Beaver` | Bijections.  |
| C14 | Two-party truncation is off by at most one, except on a negligible set of shares | proved | `Truncate` | Counting bad shares.  |
| C15 | Wrap-corrected truncation with three or more parties is off by a bounded amount | partial | `Truncate` | Exact integer identity, then bounds. Error bound proved when secret plus mask does not wrap (exactly |x| of 2^64 masks do) and count_wraps is exact; exact formula for the error otherwise. |
| C16 | count_wraps counts exactly the overflows of the sum of the shares | partial | `Truncate` | Induction on the list. Exact except when the running sum and the next share are both -2^63, where it is refuted; the exact discrepancy is proved for all lists. |
| C17 | Replicated three-party protocol is correct | partial | `Replicated` | Algebra for three parties; formula for more. Three parties proved; refuted for every number of parties from four on. |
| C18 | The SPK carry circuit adds 64-bit integers | proved | `Circuit` | Carry invariant over the six stages.  |
| C19 | Comparison circuits on binary shares are correct | proved | `Circuit` | From C18.  |
| C20 | Converting between arithmetic and binary shares preserves the secret | proved | `Convert` | Induction on the adder tree. For every number of parties, sharing, tuple stream and number of bits up to 64. |
| C21 | Comparisons of encrypted numbers are correct | partial | `Logic` | From C18–C20. Proved at the default precision and for unscaled tensors; refuted at every other precision (the result is D/s instead of 1, exact formula proved) and, for ne/eq, at difference -2^63. |
| C22 | Two-party equality is correct for every pair of encrypted values | partial | `Logic` | From C20 and C09. Proved for all pairs of words at the default precision; refuted for unscaled tensors, where eq gives the default scale instead of 1. |
| C23 | Selection functions built on comparison are correct | partial | `Logic` | From C21 and C56. Refuted for where with an encrypted condition and a public fractional alternative (the alternative is rounded to an integer); otherwise proved at the standard scales. |
| C24 | Every max algorithm returns the maximum | proved | `Maximum` | Induction on the loops of each algorithm. All four algorithms, every row length up to 2^63/2^p, any number of reduction steps, any tie-breaking randomness, any number of parties. At precisions other than the configured one comparisons themselves fail (C21_other_precisions_wrong). |
| C25 | argmax is one-hot at a maximal position, for every tie pattern and every tie-breaking randomness | proved | `Maximum` | From C24 and C52. One-hot at a maximal position for every tie pattern and every random number; also with two parties and unscaled tensors, where eq marks the ties with 2^p instead of 1. |
| C26 | pow raises to the requested power | partial | `FixedPoint`, `Power` | The code is wrong for odd exponents other than 1 and 3 (and their doublings): it computes x^powExponent(p). The exact exponent is proved for every p, and that it equals p iff p = 2^k or 3*2^k; the wrong result is shown on encrypted shares. |
| C27 | polynomial evaluates the polynomial | proved | `PolyShares`, `Power` | C27_polynomial is about the exact-arithmetic reading; C27_polynomial_shares bounds the error on shares entry by entry for any number of parties and any precision. |
| C28 | prod multiplies all elements of a dimension | proved | `Maximum` |  |
| C29 | mean and var compute the documented statistics | partial | `Power` | The unbiased flag of var is inverted in the code: proved that unbiased=True divides by n and unbiased=False by n-1. |
| C30 | cat and stack preserve the decoded value of every operand | partial | `CatStack` | Right when all scales agree; with different scales the first one is used for all, shown by a witness. |
| C31 | Out-of-place operations leave their operands unchanged | partial | `Alias` | Proved over heaps with arbitrary aliasing for every operation and program that re-encodes no operand, and, when the second operand is re-encoded, for that operand and every tensor that shares no storage with it; exact characterisation of what changes. The full statement is false: x + b with a scale-1 operand b rescales b's storage in place, so an existing view of b decrypts to 65536 times its value (witness). |
| C32 | Encodings are restored after every protocol, even on exceptions | proved | `Context` | For every list of operands with any sharing of encoders and every body, including bodies that raise. |
| C33 | The trusted third party's generators stay synchronised with the parties' for every request history | partial | `Providers` | Every tuple of the trusted third party is right for two or more parties on the CPU. The wraps server reads the CPU generators also for CUDA requests, and with a single party the server fails; both shown by witnesses. |
| C34 | Tuples from the trusted first party are valid | proved | `Providers` |  |
| C35 | The tuple cache never changes results and never runs into an error | partial | `TupleCache` | Right tuple, never used twice: proved for all histories. Everything filled can be used, but a used-up entry raises IndexError instead of generating a tuple: proved for all traced requests. All parties run the same history, so the model keeps one provider. |
| C36 | In-process collectives deliver the right messages under every thread schedule | proved | `Threads` | Inductive invariant over all schedules. For all thread counts, programs (all_gather, gather, all_reduce, reduce, scatter; payloads may depend on earlier results), payloads and schedules: right results, no deadlock, bounded number of steps to completion. |
| C37 | In-process broadcast and point-to-point delivery are correct under every schedule | partial | `Threads` | Invariant for the parts that hold; witness schedules. False: broadcasts have no barrier (witness schedules for two ranks with different roots, for broadcast followed by all_gather, and for the seed exchange at initialisation with three ranks). Proved for broadcasts with a common root and for neighbour exchange alone, for all schedules. |
| C38 | Deserialisation only ever resolves allow-listed classes | partial | `Serial` | Everything except order-independence is proved for all streams (of a pickle machine with nested storages) and all registration histories. Order-independence is false when two classes share a qualified name (the last registration wins, also over the allow-list); proved when names are distinct. |
| C39 | load_from_party reveals nothing but shapes of the source's model to the other parties | partial | `Serial` | False for buffers, which are broadcast in the clear (witness: running mean). Proved: the message for tensors depends on the shape only; two modules give the same message iff they have equal structure and equal buffers, so parameters are never revealed. |
| C40 | Temporary configuration overrides are undone on every exit | partial | `Context` | Proved for one thread and every body assigning through cfg. False for None values, references to the configuration held from before the block, and overlapping blocks in two threads (witnesses). |
| C41 | Gradient mode is restored by no_grad/enable_grad on every exit | partial | `Context` | Proved for one thread and all nestings, exceptions and handlers: the flag semantics equals the lexical reading. With overlapping blocks in two threads it fails (witness schedule). |
| C42 | backward accumulates the sum over all paths into every leaf | partial | `Autograd`, `Detached` | Induction over the topological order. Proved for every recorded acyclic graph (children older than parents, tensors with children require gradients, only leaves are marked non-differentiable) with fresh counters: leaves get the sum over all paths, each reachable interior tensor propagates exactly once. False for detach_ on an interior tensor, for computed non-differentiable arguments and for a second output sharing the graph (witnesses). |
| C43 | Every gradient function is the vector-Jacobian product of its forward function | partial | `BatchNormGrad`, `Gradients` | Derivatives in Mathlib (`HasFDerivAt`/adjoints). Over exact real arithmetic (fixed-point error and approximation error are C24, C27, C28, C53), for all inputs at which the forward function is differentiable; two-operand functions are proved jointly with any broadcasting pattern. False for pos_pow with a fractional power, norm with dim, repeated indices in x[...] and take, vector times batched matrices, and polynomial overwrites the caller's coefficients (witnesses). Shape operations are C62, convolutions and average pooling C63. Max pooling is C64.. |
| C44 | SGD follows the documented update for every history | partial | `Sgd`, `SgdShares` | Proved on a heap of tensor objects, in exact arithmetic, for all histories and all code between the steps: documented updates (with a closed form), gradients unmodified, entries of magnitude not below the threshold dropped. False as run on shares: the square overflows, so a gradient of 65536 passes the threshold 1 (witness); entries equal to the threshold are dropped although documented to be kept. Away from overflow the decision on shares is right up to the rounding of the square, and after any history of steps on shares (threshold, momentum, dampening, L2 penalty, Nesterov, missing gradients) parameter and velocity are within an explicit error bound of the documented ones; for plain SGD the bound is e + T(eg*lr + (M+eg+n)/2^k). |
| C45 | A graph model computes the composition of its modules for every insertion order | partial | `Graph` | For all graphs: whatever forward returns is the recursively evaluated value. For all well-formed graphs of single-output modules with one output: forward succeeds and is independent of the insertion order; Sequential computes the composition. False: several outputs (KeyError after clean-up), a module using a value twice (raises), results that are further outputs of a multi-output module (KeyError), a multi-output module whose name is not among its outputs (never returns). |
| C46 | Encrypting and decrypting a model preserves and covers all its state | partial | `NnModule`, `StateDict` | All module trees: encrypt covers every descendant and reveals nothing if the root's flag is not set and flags match the state, decrypt reveals exactly the encrypted tensors and inverts it, state_dict has exactly the parameters and buffers, loading restores the parameters and rejects missing keys, wrong shapes, wrong kinds, wrong versions. False: a module added to an encrypted model stays plaintext, an encrypted buffer is revealed by encrypt(), buffers are not loaded, superfluous keys are accepted. |
| C47 | Big-integer arithmetic on the GPU through floating-point blocks is exact | partial | `Cuda` | Exactness for every operand, every order of the additions and IEEE rounding to 53 bits, for dot products of up to 2^21 terms, convolutions of up to 512 (kernels below 256 elements) or 2^21 products and windows of up to 2^31 entries. The full statement is false: the block count of the convolutions ignores the channels, so a 1x1 convolution with 513 channels can be inexact in every order of summation; so can a dot product of 2097217 terms. |
| C48 | Max-pooling ignores padding | partial | `Pool` | Proved for equal paddings on both axes and windows with a real entry of at least -256 per party (default encoding), for every geometry, party count, algorithm and randomness; exact description of the result otherwise; output sizes proved in both rounding modes. The full statement is false: values below -256n lose to the padding, and different paddings are applied to the wrong axes (witnesses, one raises). |
| C49 | Oblivious transfer delivers exactly the chosen message | partial | `OT` | Delivery is proved for every list of transfers, every choice, every exponent and every hash with 64 characters, and the sender raises exactly when a message is longer than the pad. The pad of the unchosen message comes from another group element exactly when the sender's exponent is not a multiple of a quarter of the group order; with such an exponent, which randint(0, p-1) may return, the receiver's key opens both messages. The receiver's message hides the choice if its exponent is drawn over one period; the code's range has one value more, so the two distributions differ. The modulus is proved prime and 3 a primitive root by a certificate the kernel checks. Computational hiding of the other pad (discrete logarithms, hash as random oracle) is not modelled; the group order is 2^40-smooth. |
| C50 | Randomised response flips each label with the configured probability and yields labels | partial | `DPSplit` | Plaintext labels: one call flips right, for all labels and masks; but the caller's tensor is changed in place, so later calls with it flip with the larger probability (1-(1-2q)^k)/2 (exact formula proved), and integer tensors are refused. Encrypted labels: refuted; the result is t + q - 2mt, never a label, and reveals t (proved for every label, flip and provider randomness); only its mean over the flips is right. Noise: right for every source except rank 0, whose noise is ignored. |
| C51 | Communication statistics count each call once | partial | `CommStats` | Proved for every history of calls, resets and changes of the setting in the multi-process communicator, except for broadcast_obj, whose count is shown to be wrong. The in-process communicator never counts anything (shown). With logging on, calls that pass src/dst by keyword raise (shown). |
| C52 | Encrypted random numbers are uniform in [0,1), and sampling with them has the documented probabilities | proved | `Sampling`, `SamplingFixed` | weighted_index is exact for unscaled integer weights (the case argmax uses). For fixed-point weights the truncated product moves the drawn number by less than n units in the last place: exactly one index when the weights add up to at least n, of positive weight unless it is the first. With p = 0 rand raises. |
| C53 | Iterative approximations converge as documented | proved | `Activation`, `Approx`, `Chebyshev`, `CosSin`, `FixedPoint`, `InvSqrt`, `LogDefault`, `LogShares`, `LogUses`, `Quiet`, `Reciprocal`, `Sigmoid`, `Softmax` | Proved for the exact-arithmetic reading of the same program text that also runs on shares; For exp, the Newton reciprocal, sigmoid, tanh, softmax, cos, sin, the inverse square root, the square root, the logarithm (also with input_in_01), log_softmax and the reciprocal by logarithms the errors on shares are bounded entry by entry (C53_..._encrypted), with numbers for the default configuration and two parties (C53_..._default_encrypted). Also shown: erf uses wrong powers, the documented parameter reciprocal_log_iters has no effect, sigmoid breaks down far outside the range of exp, and with the method chebyshev and eight terms tanh is -1 from 10 on. |
| C54 | Dropout keeps or drops whole entries and preserves the expectation | partial | `Dropout`, `Gradients` | Holds for every input, mask, history and number of parties, up to n units in the last place for entries (dropped entries are exactly zero for n<=2 and on the path without gradients). False for parties run as threads (masks differ) and, without gradients, for p=1 in evaluation mode; both shown by counterexample. p=1 with gradients (0/0) is not modelled. |
| C55 | Autograd reductions invert broadcasting | partial | `Broadcast` | Proved for all shapes without a dimension 1 broadcast to 0; that case is false (witness): the gradient keeps size 0. |
| C56 | Operands of different precision are aligned before addition | partial | `ArithFunc`, `Division` | Sums proved for all aligned scales; products proved for equal scales and when one scale is 1, refuted for two different scales above 1 (the result is off by the quotient of the scales, proved). |
| C57 | Zero-shares also cancel when the parties are threads of one process | partial | `Sharing` | Refuted for two threads; holds for one. |
| C58 | A numpy array is encoded like the tensor with the same numbers | partial | `Encoder` | Refuted: fractions of numpy arrays are dropped before scaling; integers are encoded right. |
| C59 | Selection between binary-shared tensors | proved | `Circuit` |  |
| C60 | update_parameters moves parameters along their gradients and leaves the gradients alone | partial | `Sgd` | False without a threshold: the gradient object is scaled in place (witnesses for two calls and for a shared gradient). Proved with a threshold on encrypted models. |
| C61 | Split training with private labels follows the gradient of the documented loss | partial | `DPSplit` | The gradient with respect to the logits is proved for all inputs; the reported loss value is wrong for rappor_prob = 0; the weight of the last layer always gets its true gradient; the other parameters do if the last layer's inputs are linearly independent samples, otherwise a witness shows a wrong gradient of the bias. The protocol full_jacobian is right for batches of one sample, wrong for two (the Jacobian is summed over the batch), adds noise once per sample, and always raises after writing the gradients. Real arithmetic; rounding is the subject of the fixed-point properties. |
| C62 | Gradients of reshaping, slicing, joining and summing operations | partial | `ShapeGrad`, `ShapeGrad2` | N-dimensional tensors as functions of index lists; operations as index maps; adjointness by sums over index sets. Proved for all shapes and arguments, except: permute with a negative dimension and narrow with a negative dimension always raise in the backward pass, narrow with a negative start raises or returns a zero gradient, pad with a negative amount and sum over a tuple of dimensions raise (each shown); crypten.cat of plain tensors ignores dim (shown). Exact arithmetic on the entries; rounding does not occur in these operations. Tensors without dimensions with dim 0 or -1 (accepted by torch) are outside of the model. |
| C63 | Gradients of convolutions and average pooling | partial | `Conv` | Convolution and transposed convolution as sums over index lists; the backward pipeline (repeat, view, grouped convolution, sum, view, transpose, narrow) step by step; sizes by integer division; re-ordering of finite sums. Proved for inputs with any number of spatial dimensions (so for conv1d and conv2d at once), for one group or one channel per group and a batch that is not empty; several groups of several channels (documented) and empty batches raise for every call (shown). Average pooling is proved for inputs with a batch dimension; without one the gradient may have a wrong shape, and ceil_mode is ignored when gradients are on (both shown). Exact arithmetic; torch's convolution and transposed convolution are modelled by their defining sums. |
| C64 | Gradient of max-pooling | partial | `MaxPoolGrad` | Loop invariant for the sum of the blocks; bounds on the output size in both rounding modes give room for every block; Fréchet derivative of a maximum with a unique argument. Proved for inputs with batch and channel dimension, equal paddings on both axes (the code asserts it) and, with ceil_mode, equal kernel size, stride and dilation on both axes. With ceil_mode and different axes the sizes are exchanged and the call can raise; inputs with another number of dimensions are accepted by the forward function only (both shown). Exact arithmetic; the value that padding stands for is a parameter (C48). |
| C65 | Adaptive pooling equals torch's definition for every size | partial | `Adaptive` | List model of the row-inserting loop, invariant: finished blocks followed by the rest of the input; means and maxima of extended windows; rounding to 53 bits as an explicit function on rationals. Proved whenever the floating-point start and end indices are the exact ones, which is proved for all sizes whose ratio is a fraction with a power of two as denominator. False in general: in double precision 29 rows are pooled to 6 instead of 7 (witness, with correctly rounded doubles computed in the kernel). The tensor functions raise for an integer and ignore the width for (None, w) (shown). Exact arithmetic on entries. |
| C66 | Layers imported from ONNX compute what the operator prescribes | partial | `Onnx1`, `Onnx2`, `Onnx3`, `Onnx4` | One definition per layer, `from_onnx` and `forward` together, over tensors of any shape; the specification states each operator entry by entry; folds over axes by induction; index arithmetic on lists. Proved for all shapes and entries under the conditions named in each theorem. The general claim is false; shown with witnesses: a slice that ends at 0 from a negative start takes the rest, negative bounds mixed with others raise; Expand by a leading 1 duplicates; Reshape with 0 and Flatten of empty tensors or negative axes raise; Squeeze of a larger dimension is ignored; Pad reads the pads in torch's order; Conv takes every second padding; pools ignore the second kernel size and padding, dilations and count_include_pad; Clip uses -1 and 1 for missing bounds; Gather without axis flattens; several optional attributes are mandatory; Sum and Mean are mapped to reductions. Also: Equal returns the Python object False for tensors of different shapes, so that Where selects the wrong input; Pow raises for fractional or several exponents and is wrong for most integers; Cast ignores encrypted tensors; Range raises where the result is empty; ConstantOfShape needs a value and a dimension; Shape ignores its bounds; Concat of plain tensors ignores the axis, of one or of mixed tensors raises. Exact arithmetic except for Clip, which is about shares. |
| C67 | Batch normalisation layers use their current state | partial | `BatchNorm` | State machine with the cached value as a component; invariant over all reachable states: in evaluation mode the cached value is the image of the running variance, or both are agreed values. Plain tensors are functions of the party. Proved for every history in which running_var is not replaced in evaluation mode and the layer is not encrypted in evaluation mode while the parties hold different running variances; both exceptions give wrong outputs (shown). The running variance follows the variance with divisor N, torch's with N - 1 (shown). Exact arithmetic; 1 / sqrt(v + eps) is a parameter. |
| C68 | Gradients of a whole program are the derivatives of its data flow | partial | `Recording` | The tape and the true flow of data are two semantics of the same programs; invariant over the program: for every leaf that requires a gradient, the sums over paths in the tape and in the flow agree for every tensor. Then C42, extended to graphs with detached leaves by a simulation. Proved for programs in which encrypted operands that require a gradient are passed positionally, not after a plaintext operand, not to unrecorded functions, not to in-place operations, and only leaves are detached. Outside these conditions gradients are lost or wrong without an exception, shown by one program for each condition. Exact gradients, one backward call. |
| C69 | Accumulation of gradients writes only to the gradients | partial | `GradBuffers` | A heap of tensors that gradients point into. Invariant: gradients of different leaves are different tensors, and a caller's tensor is one of them only if it was adopted. Proved for callers who do not pass a tensor again as gradient input after it has become the gradient of a leaf (which happens when only views lie between). Otherwise gradients are doubled or shared between leaves, and the caller's tensor changes (shown). Which operations return views is read off gradients.py; views are identified with their storage. |
| C70 | A model imported from ONNX computes what the graph means | partial | `OnnxGraph`, `OnnxStuck` | Execution of the nodes in order is the specification. Induction over the nodes: every value so defined is the value of the name in the graph of modules, which is well-formed with the position as rank; then C45. Proved for graphs with one output, whose parameters are not inputs, whose nodes have one output (or are Dropout) and use no value twice. The exceptions are converted, but every forward pass raises (shown). Optional inputs that are left out (empty names) and values used twice make every forward pass of all such graphs raise (C70_stuck). That single layers are right is a hypothesis (C66). |
| C71 | Launching parties as processes returns their values in the order of ranks | partial | `Launch` | Transition system of the processes and their writer threads. Invariant: bytes in the pipe and used places are sums over the phases; a sum of remaining steps decreases in every step. The result is right for every schedule. That the launch returns is proved for values that fit into the pipe together and queues with a place for every process; otherwise it never returns (shown). The behaviour of multiprocessing.Queue (semaphore, writer thread, lock, pipe) follows its documentation; communication between the parties while the function runs is not modelled. |
| C72 | A whole program on encrypted tensors reveals its exact result up to a computable error | partial | `Program`, `Quiet` | Each method preserves a bound on the distance from the exact value (interval arithmetic on magnitudes and errors); induction over the program. That the proviso on truncations is met by some run of every program is proved by constructing the tuples: all random numbers zero, except zero-shares that hand every input over to party 0 (`Props/Quiet.lean`). The encrypted value is proved to be within the bound. What get_plain_text returns is within the same bound for numbers not below -1; below that the decoder of C06 adds up to 1 + |v|/(2^k - 1) (witness). Wrap-arounds of truncations are a proviso (C14 and C15 count how many shares and masks cause them); with one party there are none. All tensors have the default precision. |
| C73 | Validation mode changes nothing but rejects wrong results | partial | `Validation` | Case analysis of the wrapper with the method and torch's method as parameters. Proved for methods that are not in-place and of which torch returns numbers. In-place methods are compared with the wrong reference, comparisons and in-place methods under autograd always raise, requires_grad is always true, and the check of div_ rejects correct truncations (witnesses). Which method torch has, and that it does not subtract masks, are assumptions about torch; its rounding is not modelled. |
| C74 | A sequential model computes the composition of its modules however it is built | partial | `SequentialDict` | Agreement with the list-based graph of C45 where strings have one character; execution of the two rounds otherwise. Proved for modules given as arguments and for ordered dictionaries whose keys are single characters. False otherwise: the key of the previous module is stored as a string, not as a list of names, so the forward pass takes its characters for the names of inputs and raises for every dictionary of two or more modules whose first key has two characters (proved for all such dictionaries); with suitable keys it silently computes something else; a module after a dictionary is unconnected. |
| C75 | CrypTen can be started, ended and started again | partial | `Session` | Closed form of the state after every history. Proved for all histories of init and uninit in one process, and for threads that start in a process without leftovers. False: with a trusted third party every session after the first keeps the old client, whose groups are gone; with a process group of the user, init raises but leaves CrypTen initialised for ever; the first uninit of a thread ends all threads' sessions and the others' raise; threads that did not call uninit leave mailboxes of the wrong number (witnesses, for all histories). torch.distributed is a number for each process group. |
| C76 | Parameters keep their identity through training mode, encryption and optimisation | partial | `ModuleHeap` | Induction on the depth; encryption as a sequence of steps with an invariant relating it to the state before. Proved for all acyclic graphs of modules with shared submodules and shared tensors. False: train() and eval() overwrite requires_grad of every parameter, so that frozen parameters are trained; parameters tied before encryption are separate tensors after it; an optimizer made before encrypt() never changes the encrypted model; a layer shared by two parents is listed and updated twice (all proved, the first three for all models). Buffers and momentum are elsewhere (C44). |
| C77 | What the other parties see says nothing about a party's inputs | partial | `Privacy` | A relational logic on protocols (Hidden): rules for pure steps, sequencing and each use of a tuple, then one lemma per function by symbolic execution. Perfect privacy, for programs of any length: a bijection between the tuples of the two runs under which all others see the same, and no other tuples give the same view. It assumes that all correct tuples are equally likely and that the dealer is not one of the observers. With the default provider rank 0 is the dealer, and it reads the inputs from the transcript (proved). Honest but curious parties; active security, homomorphic encryption of tuples, and dropout masks are outside. |
| C78 | Attributes of modules have one meaning each; ModuleList and ModuleDict are lists and dictionaries | partial | `Attr` | Refinement: a map from names to slots, and a list, with the invariant that the four dictionaries are disjoint and that list keys are 0..n-1. Lists: proved in full. Attributes: proved for all histories in which add_module and register_module are not used with the name of something else; otherwise two things share the name (proved). False: del of a registered name always raises; names the class defines cannot be used for submodules; ModuleDict cannot replace an entry (all proved). The functions taken from torch.nn.ModuleList and ModuleDict are modelled as torch defines them; insert only within the list. |
| C79 | The loss modules compute the documented losses | partial | `Loss` | Sums over all indices of a shape; squeezing is a bijection of indices. Exact arithmetic. Proved in full for the losses that are means, for cross-entropy of all shapes with more than one observation and more than one class, for plain arguments and for skip_forward. False (proved): cross-entropy of a batch of one observation is divided by the number of classes instead of 1 (with further dimensions the softmax even runs over positions instead of classes); the documented class-index targets are refused; RAPPORLoss with alpha=0 differs from its formula. A plain argument given to an encrypted loss counts with party 0's values only. |
| C80 | How often a program's result is off | partial | `Failure` | Counting over a finite set of equally likely outcomes: classes of outcomes that agree on all earlier requests, C14_bad_first_shares and C15_bad_masks within a class, union bound over entries and lines, by induction over the program; the locality of protocols comes from C77. Proved for every number of parties except two, and for two parties for programs without division by public numbers and without products with public fractions (shares that are truncated there need not be random). This removes the proviso of C72 about wrap-arounds in favour of a probability. The hypothesis on the provider (each word has at most one of 2^64 - 1 cases, given all earlier requests) is met by ideal randomness, also with the word 2^63 - 1 that generate_random_ring_element never returns (C04); a pseudorandom generator meets it only computationally. |
| C81 | Back to PyTorch | partial | `Export` | State machine over storages: the original, the copy made by deepcopy, and the tensors of the CrypTen model. Invariant: the three occupy different storages until an export makes the copy refer to the CrypTen tensors; induction over the history. Parameters, the original model and the exception for encrypted models: proved for all histories, with memory that may be shared. False (proved for all models and histories): buffers and the training flag of the exported model are those of the conversion; the exported model shares memory with the CrypTen model, so later updates change it; every export returns the same object; to_pytorch raises KeyError if some parameter does not occur in the traced graph. What the exporter of torch writes is a hypothesis; modes of submodules are not modelled. |
| C82 | Split training with changing batches | partial | `SplitSession` | Joint state machine of the feature source and the other parties, with the number of broadcasts each of them takes part in; invariant over call sequences. Proved for all sequences of calls with equal sizes, and for forward passes of any sizes without caching. False (proved for all sizes): the size of the last layer's input is cached whatever the setting, so the first backward pass with another batch size fails at all parties but the feature source; with caching, only the feature source raises; switching caching off later leaves the others waiting; loss.backward() never works. |
| C83 | Output and files of several parties | partial | `Files` | Small-step semantics of programs with barriers; for programs made of segments between barriers every schedule's trace goes through the segments in step (induction over the schedule), and there is no deadlock; print and save/load are instances. Proved for all schedules. save/load needs that no two parties write to the same file: with one path on one machine all parties read one and the same share (proved for every schedule). If writing fails at the source of save_from_party all others wait for ever; with parties in threads, barrier cannot be called, so all these calls raise. |
| C84 | Encrypted normal random numbers | partial | `Randn` | Box-Muller as a change of variables (Mathlib's polar coordinates and one-dimensional change of variables) for one pair; product measures for all pairs; the number left out for odd sizes by a marginal of a product measure; the excess of the constant over 2*pi by comparing measures on the set of draws whose angle is within a full turn. With ideal uniform numbers and exact log, sqrt, sin and cos: with 2*pi for the constant, the joint distribution is exactly that of independent standard normal numbers; with the constant of the code every event's probability is within 5e-10 per pair. With the uniform numbers of rand (multiples of 2^-16) no value exceeds 4.71: the tail is missing. The approximations of log, sqrt, cos and sin (C53) are not combined with this. |
| C85 | Copies of encrypted tensors and in-place writes | partial | `Copies` | A heap of cells, shared tensors (class, places, scale) and MPCTensors (shared tensor, ptype) against a reference heap of places with rational numbers; simulation by induction over the program; conversions by C20. Every program agrees with the same program in the clear, provided that writes are between tensors of one private type, that the precision of what is written is that of every other tensor that looks at the places through another view (exactly then, or for zeros: C85_read_after_write), and that conversions to arithmetic shares do not lower the precision. Without these conditions the property is false (witnesses). Devices and partly overlapping copies (torch raises) are not modelled. |
| C86 | Division of an encrypted tensor | partial | `Division`, `Reciprocal` | The dispatch of div_ as a function on kinds of divisors; the wrap-corrected truncation for divisors of either sign, using floor and truncated division identities; reciprocals through C56_mul_public. Integers: full (up to the no-wrap conditions of C14/C15). Other numbers: proved with the error of the encoded reciprocal, an absolute 2^-precision times |x|, so the property is false for large divisors, for tensors without dimensions (exception), for results of comparisons (no fraction bits), and for zeros among fractions (witnesses). Encrypted divisors: relative to the accuracy of reciprocal (C53), and with numbers for two parties and the default configuration (divisors from 1/4 to 32). |
| C87 | Recording gradients does not change results | partial | `Calls`, `Recorded`, `Recorded2` | Python's argument binding as a function on calls, a table of both parameter lists of every method, lemmas for lists that differ in names only; for the values, the protocols of the forward functions on shares, through the comparison and multiplication theorems of C23 and C56; for powers the exponents 2^a 3^b of both recursions compared modulo 3. Exactly 38 of the 68 methods (all but cat and stack) read every call in the same way; a distinguishing call is given for each other one, and the calls on which all agree are described. Values: proved for the forward functions that do more than call the native method, relu (all but the smallest number), hardtanh (integral bounds), relu6, products with Python integers (up to rounding), powers 1 to 4, sqrt, abs; false for fractional bounds, products beyond half the range, powers from 5 on, and 0 to the power 0 (witnesses). The torch parameter names are those of its documentation; keyword-only options of torch are not modelled. |
| C88 | Operators, comparisons and subscripts mean what they say | partial | `Operators` | The special methods of the class as a table of bodies; Python's dispatch as a function on the kinds of the operands; induction over expressions. Augmented assignment on an environment of names bound to objects. Values and secrecy: for every expression that evaluates. Which expressions evaluate: exactly those without a power of an encrypted tensor, a number over an encrypted tensor, or a plain tensor to the left of an encrypted one. Gradients: for every expression without subscripts; false for subscripts. The named methods are taken to be exact here; how Python and torch dispatch operators is taken from their documentation. |
| C89 | Programs on binary-shared tensors | partial | `BinaryTensor` | Tensors with shapes whose entries are the words of all parties; a program is a list of statements over a list of tensors, run on shares and on plain words; one lemma per statement that relates both, then induction over the program. Programs: proved for all of them, except that nothing is promised after `x &= y` or `x |= y` with an encrypted `y` larger than `x`, for sums with nothing to add up and for a dimension of a tensor without dimensions (the first two are bugs). Circuits take two encrypted operands here (public ones: C18, C19). Every tensor has storage of its own. Constructor: all parties use the same `src` and `broadcast_size`. |
| C90 | Operators of the GPU integer tensor type | partial | `CudaTensor` | State of variables (wrapped or plain) with places in a heap; one step function that follows Python's choice of method and one with torch's own operators; a simulation relation (same places, same entries) preserved by every statement, induction over programs; for `__torch_function__` induction over the depth of the stack. Every program without `//`, `//=` and `number ** x` computes what torch computes or raises; exactly which statements raise is characterised. Missing: floor division with negative entries, `//=` on shared storage, and `number ** x`, where the results differ (bugs); statements that torch executes and the class refuses. Not modelled: views of a part of a tensor, floating point results, devices. |
| C91 | Layers built directly compute the documented functions | partial | `Layers` | Shapes and index functions; the bias is shown to be stretched along the right dimension by a lemma on broadcasting; convolutions share the lemma of C66 that the tap function reads the padded input; on shares one truncation (C56) and an exact addition. Complete for Linear, MatMul with matrices as second factors, and Conv2d with batched input. Missing: Conv1d with a tuple for stride or padding, which is documented and refused (C91_conv1d_tuple_wrong). Not modelled: inputs of convolutions without batch dimension, batched second factors of MatMul, the random initial parameters. |
| C92 | Registered types of encrypted tensors | partial | `Registry` | The state of the registry is a list of pairs and a default; by induction on the history from the end it is shown to agree with a description on the history alone (the first accepted registration of a name; the last accepted change of the default; the order of registration). The round trip holds only if no class registered earlier is an ancestor: tensors of a registered subclass of MPCTensor are reported as "mpc" (C92_round_trip_wrong), and cat and stack accept mixtures of the two types (C92_join_wrong). Everything else is complete for every history. Classes are names with their lists of ancestors. |
| C93 | Models with activation functions are right up to a computable error | proved | `Network`, `Quiet` | The accuracy theorems of C53 compare each function with the true one at the number that is really shared; Lipschitz bounds of the true functions carry the error of the operand; induction on the list of lines. Every network has runs that meet the proviso (`C93_good_run`, as for C72). Two parties, 16 bits of precision, the methods of the default configuration. Lists of lines of any length; each line may have any shape. The proviso on local truncations is that of C05 (two parties). Ranges: exp on -256..0, log on 1/100..100, reciprocal on 1/4..32, sqrt and inv_sqrt on 1/10..128, sigmoid to 128, tanh to 64, cos and sin to 13/2, softmax of 2..31 and log_softmax of 2..98 classes. |
| C94 | Training a linear classifier on encrypted data follows the plaintext run | proved | `Svm` | Predictions are exact as long as scores keep their distance from zero (C23_sign), so the gradients carry only fresh rounding errors; induction on the number of epochs, with the bounds of C72 for each line. n parties, any precision. The margin condition is on the plaintext run only. C94_good_run: for every number of parties and all data there is a run without wrap-around. C94_zero_score_wrong: without the margin condition the claim is false. |
| C95 | Training a linear model by SGD on encrypted data follows gradient descent | proved | `Regression` | One pass is a step of exact gradient descent from the decrypted weights plus rounding; an exact step does not increase distances (Cauchy-Schwarz), so the triangle inequality and induction on the passes give a linear bound. n parties, any precision. The conditions bear on the data and the exact run only. C95_gradient: the gradients of the specification are the derivatives of the loss. C95_good_run: a run without wrap-around exists for all parties and data. C95_large_batch_wrong: with more than 2^k examples the claim fails. |
| C96 | Moving a model between devices keeps its parameters | partial | `Moving` | Invariant of single moves of one entry, kept by the loops and the recursion over a heap with shared objects; coverage by induction on the depth. Moving between devices is proved for all heaps of modules and tensors. Missing because the code does not do it: plaintext parameters are replaced by tensors that are not leaves (C96_plain_wrong) and sharing is lost (C96_tied_wrong), a type for argument rounds the random shares of an encrypted model (C96_cast_wrong), and a parameter set from shares requires no gradient (C96_from_shares_wrong). |
| C97 | Training a logistic regression on encrypted data follows gradient descent | proved | `Logistic` | One pass is a step of exact gradient descent from the decrypted weights plus rounding and the error of sigmoid (C53); an exact step does not increase distances, because the slope of the logistic function is between 0 and 1/4 (Cauchy-Schwarz); induction on the passes gives a linear bound. The conditions bear on the data and the exact run only; weights_le bounds the exact run for labels in [0,1]. C97_gradient: the gradients of the specification are the derivatives of the mean cross-entropy. C97_good_run: a run without wrap-around exists for every number of parties and all data. The value of the loss is the subject of C79. |
| C98 | backward() on encrypted tensors computes the derivatives, up to a computed error | proved | `Backprop`, `BackpropDeriv` | Induction on the tape. Forward: every call is within its error (the primitives' exactness, C05-C09). Backward: invariant that the gradient of each register is within its error of the exact chain rule. Derivatives: HasDerivAt along every direction by induction on the tape, and the inner product of gradients and tangents is invariant under one backward call (transposition). C98_backward bounds the errors of all values and gradients; C98_derivative shows that the exact gradients are the derivative in the sense of calculus in every direction, C98_entry for one entry; C98_leaf combines them. C98_matmul, C98_batch_matmul and C98_conv2d: matrix products, batched matrix products and two-dimensional convolutions (with strides, padding and dilation, C98_tap says which entries meet) meet the condition on bilinear functions. C98_avg_pool2d, C98_max_pool2d and C98_max_dim: average pooling, max pooling (without padding) and maxima over a dimension meet the conditions on windows. C98_backward also says exactly which tensors get a gradient. C98_good_run: a run without wrap-around exists for every tape. The order in which backward goes through the graph is the subject of C42. |
| C99 | Training any network on encrypted data follows training on exact numbers | proved | `Training` | Induction on the iterations with the invariant that every encrypted tensor and velocity is within its error of the exact one; one iteration by C98_backward and the step of C44, one parameter at a time. C99_train bounds the errors after all iterations; C99_gradient shows that the gradients in the exact training are the derivatives of the network's result in the sense of calculus (its condition on ReLU follows from those of C99_train: Fits.smooth). C99_good_run: a run without wrap-around exists for every training. |
| C100 | Gradients and training on encrypted data show the other parties nothing | proved | `TrainPrivacy` | The relation `Hidden` of C77 for every call of the tape, forward and backward, and every operation of SGD; it is kept by sequencing. Induction on the tape and on the iterations. Streams of correct tuples correspond one to one such that the others' views are equal. C100_backward: one computation with gradients. C100_train: encryption and all iterations of SGD. C100_result: the share sent when a result is revealed is fixed by the result. C100_linear, C100_logistic, C100_svm: the training loops of C95, C97 and C94. |
| C101 | Split training reveals the gradient of the last layer plus noise, and nothing else | proved | `SplitShares` | Error bounds of encryption, subtraction, division, products and sums composed along the function; the derivative by the chain rule from C61_loss_gradient; privacy with the relation `Hidden` of C77. C101_gradient: on shares, for all roles, with or without rappor_prob and noise. C101_loss: without rappor_prob the exact gradient is the Frechet derivative of the mean cross-entropy (with it, C61_loss_gradient says which derivative dLdZ is). C101_private, C101_result: views correspond one to one and the share sent is fixed by the noisy gradient. C101_good_run: the proviso on wrap-around can be met. What the feature source does with the gradient is C61. |
| C102 | The CNN example trains by gradient descent on columns of two parties | proved | `CnnExample` | The forward pass as a tape of C98; its value computed register by register; the derivative from C98's general theorem; the loop by induction with the step bounds of C43; privacy with the relation `Hidden` of C77. C102_train: the network, its loss and the descent step are written out independently of tapes; the gradient is a derivative over the reals. Conditions: nothing overflows, no relu operand or pair of pooled values is within its error of a tie, no gradient within its error of the threshold (sample: Verif/Props/CnnSample.lean). C102_private_*: the views correspond one to one. C102_good_run: the proviso on wrap-around can be met. Batches of equal size only; what the revealed losses tell is not counted. |
| C103 | TensorBoard graphs show the model | partial | `Tensorboard`, `TensorboardSeq` | The traversal with `memo` equals the plain listing of all modules with their paths when identities are distinct (mutual induction over the tree); dictionary lookups then find what they should. Counterexamples by evaluation. C103_sequential: complete for Sequential(*layers) with distinct layers. Proved for all graphs in which no module object occurs twice, names do not clash and operands are inputs or modules, and for all modules that are no graphs. False, with KeyError, for a module in two places, for Sequential with a dictionary and for operands that are one of several results of a module; inputs and modules can get the same node name. |
| C104 | The examples report the accuracy of the predictions | partial | `Meters` | `topk` is any function with the guarantees of torch.topk. Ranks: a target in the first k of a sorted duplicate-free list has fewer than k classes above it, and one with at most k classes at or above it is in the list. Counting over ranks equals counting over samples (exchange of sums); `validate` by induction over the batches. Counterexamples by evaluation. Proved for accuracy, AverageMeter and validate. False for AccuracyMeter: it takes the first k batches where it should take the first k ranks, so mpc_imagenet reports the accuracy of the first sample divided by the number of samples (proved for all data); it raises when batches differ in size. |

## What the proofs found

Each item is proved as a theorem (mostly `_wrong`) about the model; theorem names are in the manifest under the property.

* C04: `generate_random_ring_element` never returns `2^63 - 1`, so masks are not uniform.
* C06: `decode` is off for negative values not divisible by the scale (exact error proved); C07: `nearest_integer_division` overflows when doubling the remainder.
* C11: with active security, honest matrix products are rejected; errors that are multiples of `2^63` pass.
* C16: `count_wraps` misses one case (running sum and share both `-2^63`).
* C17: the replicated protocol is silently wrong for four and more parties.
* C21/C22: comparisons at a precision other than the configured one give `D / s` instead of 1; two-party `eq` on unscaled tensors gives 65536; `ne` at difference `-2^63`.
* C23: `where` with an encrypted condition and a public alternative rounds the alternative to integers; `index_add`/`scatter`/`setitem` ignore scales.
* C26: `pow` is wrong for odd exponents above 3. C29: `var`'s `unbiased` flag is inverted. C30: `cat`/`stack` use the first encoder for all operands.
* C31: addition of operands of different scale rescales the second operand's storage in place; views of it change their value. C56: products of different scales above 1 are off by the quotient of the scales.
* C33: the third party's wraps server reads CPU generators for CUDA requests; fails with one party. C35: a used-up cache entry raises instead of generating; `trace_once` raises AttributeError.
* C37: in-process `broadcast` has no barrier; messages of different calls are mixed up. C57: in thread mode zero-shares do not cancel. C54: nor do the parties agree on dropout masks.
* C38: registrations with the same qualified name override each other and the allow-list. C39: buffers are broadcast in the clear by `load_from_party`.
* C40/C41: overrides and gradient mode are global, so overlapping threads undo each other; `None` values are not overridden.
* C42: `detach_` on interior tensors, computed non-differentiable arguments and graphs with two outputs break `backward`. C43: `pos_pow`, `norm(dim)`, repeated indices, vector-by-batch products, `polynomial`.
* C44: the threshold test squares the gradient in the ring and overflows. C60: `update_parameters` scales the gradients in place.
* C45: `Graph.forward` fails for several outputs, for a value used twice by one module, for secondary outputs. C46: modules added to an encrypted model stay plaintext; buffers are not loaded; superfluous keys are accepted.
* C47: the block count of GPU convolutions ignores the channels. C48: padding is `-256` per party, so lower values lose; unequal paddings are swapped.
* C49: some exponents make both pads equal; the receiver's exponent range is one too long; the group order is `2^40`-smooth.
* C50/C61: encrypted randomised response returns `t + q - 2mt`; labels are flipped in place, again in every epoch; noise of rank 0 is ignored; the reported loss is wrong for `rappor_prob = 0`; biases get wrong gradients when the batch exceeds the layer's inputs; `full_jacobian` multiplies a Jacobian summed over the batch with each sample's gradient, so it is wrong from two samples on (it raises NotImplementedError, after having overwritten `param.grad`).
* C51: `broadcast_obj` is counted wrongly, the in-process communicator counts nothing, and with logging on calls with keyword arguments raise.
* C53: `erf` uses wrong powers; `reciprocal_log_iters` has no effect; `sigmoid` far out is wrong; with the method "chebyshev" what is clamped outside [-1, 1] is a polynomial that need not be large there: with eight terms tanh(x) = -1 for all x from 10 on. C54: without gradients, `p = 1` erases the input also in evaluation mode.
* C62: backward of `permute` and `narrow` raises for negative dimensions, of `narrow` with a negative start raises or silently gives zero, of `pad` with negative amounts and of `sum`/`mean` over a tuple of dimensions raises; `crypten.cat` of plain tensors ignores `dim`.
* C63: backward of `conv1d`/`conv2d` raises for empty batches; of `avg_pool2d` without batch dimension returns a gradient of the wrong shape when height and width leave different remainders; with gradients on `avg_pool2d(ceil_mode=True)` silently ignores `ceil_mode`.
* C64: `_max_pool2d_backward` with `ceil_mode` uses the extra width for the height and vice versa; with different kernels or strides on the axes the backward pass can raise. It also raises for inputs that are not 4-dimensional although the forward pass accepts them.
* C65: adaptive pooling computes window ends as `ceil((j + 1) * (in / out))` in floating point; for example 7 * (29 / 7) is above 29, so pooling 29 rows to 7 returns 6 rows. The tensor functions raise for an integer output size and return the input unchanged for `(None, w)`.
* C66: ONNX import: `Slice` with end 0 after a negative start takes everything; `Expand` of a vector to `(1, 3)` returns 3 × 3; `Pad` reads the pads in torch's order; `Conv` takes every second padding, so `(0, 1, 0, 1)` is no padding; pools check `["kernel_shape"]`, a list of one string, for squareness and so accept any kernel, and ignore paddings after the first, dilations and `count_include_pad`; `Clip` without a bound uses -1 or 1; `Gather` without axis flattens; `Sum` and `Mean` of several inputs become reductions. `Equal` of tensors of different shapes returns the Python object `False` and a following `Where` then takes the wrong input; `Cast` does nothing to encrypted tensors; `Concat` of plain tensors ignores the axis and of a single tensor raises; `Range` raises where the result should be empty; `Shape` ignores `start` and `end`.
* C67: `eval()` freezes the inverse standard deviation, so replacing `running_var` afterwards has no effect, and a layer encrypted after `eval()` multiplies by each party's own plaintext value; the running variance is updated with the biased variance, unlike torch.
* C68: gradients are lost without an exception for encrypted keyword arguments, for `split`, `unbind`, `expand`, `repeat`, `unfold`, `prod`, `conv_transpose*`, for the added tensor of `index_add`/`scatter_add`, for `total += y` when only `y` requires a gradient, for `y[i] = v`, for `dropout(inplace=True)` (the tensor becomes its own child), and for the whole branch in `z = y * y.detach()`; with a plaintext weight and an encrypted bias `batchnorm` sends the bias the gradient of the weight.
* C69: `backward` keeps the caller's gradient tensor and later adds to it in place: with one tensor `g`, `x.backward(g)` three times on a leaf gives `4 g`; leaves that were given the same tensor share their gradient from then on.
* C70: imported graphs with parameters among the inputs demand them as arguments; nodes that use a value twice (`x * x`) and operators other than `Dropout` with a second output (`DropoutNd`, as CrypTen itself exports `Dropout2d`) make every forward pass raise; `_get_model_or_module` never returns a single module.
* C71: `run_multiprocess` joins the processes before it reads the queue, so it hangs for ever when the return values together exceed the pipe buffer (64 KiB), and with `maxsize` below the number of processes.
* C72: `cryptensor([-1000000.0]).get_plain_text()` is -1000015 (the decoder of C06).
* C73: in validation mode `x.requires_grad` is a function and therefore true, so that with gradients enabled every in-place method raises; in-place methods are compared with the method applied twice (`x.mul_(10)` raises); comparisons raise because torch does not subtract masks; the check in `div_` rejects truncations that are one unit off.
* C74: `Sequential(OrderedDict(fc1=..., fc2=...))` can be built but its forward pass always raises "Is graph unconnected?": the constructor passes `input_names = key` instead of `[key]`. `Sequential(OrderedDict(...), module)` always raises as well.
* C75: `crypten.uninit()` does not remove the client of the trusted third party, so that after `uninit(); init()` (also in `run_multiprocess` called from an initialised process) all requests go to groups that were destroyed. In threads, only the first `uninit()` succeeds and it ends the session of all threads; mailboxes survive threads that do not call it, with the old number of parties.
* C76: `Module.train()`/`eval()` set `requires_grad` of all parameters (a frozen parameter is unfrozen); `encrypt()` replaces every parameter object, so that tied weights are untied and an optimizer constructed before it steps on tensors the model does not use any more, without an error; `parameters()` repeats the parameters of a submodule shared by two parents and `SGD` steps on them twice.
* C77: with the default `TrustedFirstParty` provider rank 0 generates all tuples in the clear, so that everything other parties enter is known to rank 0 as soon as it is used in a product (`C77_first_party_wrong`); only parties other than rank 0 learn nothing.
* C78: `ModuleDict[key] = module` and `ModuleDict.update` raise `AssertionError` for a key that exists (`add_module` rejects it); `del model.layer` always raises; `add_module`/`register_module` accept the name of a parameter or of an attribute such as "training", which then hides the submodule.
* C79: `CrossEntropyLoss` squeezes its arguments before the batch dimension is read: for one observation of shape `(1, C)` loss and gradient are the documented ones divided by `C`, and for `(1, C, D)` the softmax is taken over the `D` positions. Its documentation asks for class indices, which it always refuses. `RAPPORLoss(alpha)` uses `r = alpha*p + (1-alpha)*(1-p)` for `alpha != 0` (so `alpha` is the probability of keeping a label, not of flipping it as documented) but `r = p` for `alpha = 0`. BCE, cross-entropy and RAPPOR losses of plain tensors raise `AttributeError`.
* **C81, `Graph.to_pytorch` (module.py:748-758).** Only `named_parameters()` are copied: running means and variances updated while training the CrypTen model are lost, the exported model has those of the time of the conversion. `param.set_` makes the exported model share the memory of the CrypTen model, and every call returns the same object, so models exported earlier change (a checkpoint taken with `to_pytorch()` is overwritten). A parameter that the traced graph does not use raises KeyError. `_get_model_or_module` (onnx_converter.py:221-229) never returns a module: `modules()` contains the model itself.
* **C82, `DPSplitModel` (dp_split.py:182-237, 502-519).** `last_in_size` and `last_weight_size` are cached even if `cache_pred_size` is off, so a last, smaller batch of an epoch breaks training: all parties except the feature source encrypt a `last_input` of the old size and raise in `matmul`, while the feature source waits for them. With caching on, the size check raises at the feature source only. `compute_loss` stores `backward_(self_, grad_output=None)` in the loss object, so `loss.backward()` raises TypeError (a missing argument).
* **C83, `save` (crypten/__init__.py:416-430).** All parties write to the path they are given. Parties of one machine called with the same path (as the other functions with a `src` would have it) overwrite each other, and `load` gives all of them the share of whoever wrote last: the secret is lost without an error. `save_from_party`: an exception at the source leaves the other parties in `barrier()`. The in-process communicator (in_process_communicator.py:44) has a `threading.Barrier` object as attribute `barrier`, so `comm.get().barrier()` raises TypeError: `save`, `save_from_party` and printing in order fail with parties in threads, after the file was written, or the message of party 0 printed.
* **C84, `randn` (common/functions/sampling.py:20-50).** The uniform numbers have 16 bits, so the radius is at most sqrt(32 ln 2) < 4.71 whenever the draw is not zero: larger values, which a normal distribution has, never occur. (For a draw of zero, with probability 2^-16 per pair, the result is whatever the approximation of `log` gives at 0.)
* **C85, `copy_` and `__setitem__` (mpc/mpc.py:94-98, mpc/primitives/arithmetic.py:206-209, 222-229).** A view shares storage with the tensor but has an encoder of its own: `v = x[0]; v.copy_(y)` (or `v.mul_(...)` and so on) with a `y` of another precision leaves `x` with numbers that are off by the quotient of the scales; `x[0] = y` ignores the encoder of `y` altogether, so storing the result of a comparison (precision 0) into a tensor stores 1/65536. `x.copy_(y)` with a `y` of the other private type takes over `ptype` but not the class, so that `x` decrypts to another number, and `x.to(...)` then returns an alias. `to(Ptype.arithmetic)` of a binary tensor with more than the default precision gives zeros (converters.py:67). `MPCTensor.from_shares(share, ptype=Ptype.binary)` assumes the default precision, whereas `MPCTensor(..., ptype=Ptype.binary)` has precision 0.
* **C86, `div_` (mpc/primitives/arithmetic.py:447-482).** Divisors that are no integers are replaced by their encoded reciprocals, so that at the default precision `x / 100000.5` is 0 for every x (`x / 100000` is accurate); one fractional entry of a tensor makes the division by all its entries as inaccurate. For a tensor without dimensions, `x.sum() / 2.5` raises (in-place product with a tensor of shape [1]). Results of comparisons have no fraction bits: `(x > y) / 2`, `(x > y) * 0.75` (also C56) and `(prediction == label).mean()` are integers, the latter 0 or 1 (or one off) for every accuracy. Zeros raise in integer divisors, but in a float tensor with a fraction they give arbitrary numbers.
* **C87, gradients.py forward functions.** The result of a call can depend on whether gradients are recorded. (a) `hardtanh(-0.5, 0.5)` of 3 is 0 instead of 0.5: the bounds multiply comparison bits, which have no fraction (gradients.py:599-606). (b) `x.pow(p)`: the recorded one computes `x * pow(p - 1)`, so for every p from 5 on the two differ, and at least one of them is wrong (p = 5: 64 and 32 for the base 2; p = 6: 64 and 128). (c) `x * 2` with a Python integer is exact and, recorded, encoded, multiplied and truncated: 2^31 * 2 is about 0. (d) `relu` of the smallest number. (e) Calls: `permute` and `flip` with several integers, `sum`/`mean`/`max`/`min` with a positional `keepdim`, keywords of `transpose`, `take`, `hardtanh`, `pow`, `add`…, `log(input_in_01=…)`, `dot(weights=…)` work without and raise with gradients; positional arguments of `conv1d`/`conv2d` raise without and work with gradients; `pad(p, mode, value)` exchanges its arguments; unknown keywords of `sum`, `mean` and `squeeze` raise without and are ignored with gradients (`sum(dims=0)` is then the sum of all entries); `avg_pool2d(ceil_mode=True)` raises without and is ignored with gradients.
* **C88, operators.** Python finds special methods on the class, not through `__getattribute__`. (a) `x[i]` runs the native function: the result does not require a gradient even if `x` does, so `backward` silently gives `x` nothing; `x.__getitem__(i)`, which the test of gradients uses, is recorded (regular.py:285-297, gradients.py:455-467). (b) `x ** 2` and `1 / x` raise `TypeError`: `__pow__` and `__rtruediv__` are in `PYTHON_BUILTIN` (cryptensor.py:129-144) but not in the class. (c) `plain + x`, `plain * x`, `plain < x` with a torch tensor on the left raise `NotImplementedError` from `__torch_function__` (cryptensor.py:285-297), while `x + plain` works.
* **C89, binary tensors.** (a) `x &= y` (and `|=`) with an encrypted `y` that is larger than `x` replaces the share of `x` by one of the larger shape (binary.py:236-244), while `x ^= y` and `&=` with a public operand raise. (b) `sum` over a dimension of size 0 returns a tensor of size 0 instead of zeros (binary.py:339-362: the loop ends at once and `squeeze` keeps the dimension). (c) A public operand of `^=` that does not fit raises at rank 0 only; the others carry on (binary.py:213-223).
* **C90, CUDALongTensor.** (a) `x + y`, `-`, `*`, `&`, `^`, `%`, `**` clone `x` and change the clone in place (cuda_tensor.py:430-469), so they raise where `x` has to be broadcast; `x.add(y)` and `plain + x` do not. (b) `__rpow__ = __pow__` (line 526): `3 ** x` is `x ** 3`. (c) `//` rounds towards zero (line 397) while torch's rounds down, and `//=` puts the result in new storage, so other names of the tensor keep the old value. (d) `x / y` always raises (`_tensor /= y` on integers, line 403; there is no `__itruediv__`). (e) `x[i] = 1` raises AttributeError (`value.data`, line 105). (f) `|`, `~`, and `&`, `^`, `//`, `%`, `<<`, `>>` with a number on the left are missing, shifts take numbers only. (g) `x.eq(y)` leaves a tensor of type bool in the wrapper, unlike `x == y`; the sum of two is their disjunction. (h) `torch.cat([x, y])`, `torch.stack([x, y])` and `torch.add(x, other=y)` recurse without end: `__torch_function__` (lines 82-99) unwraps positional arguments only.
* **C91, nn/module.py:2124-2125.** `Conv1d` asserts that stride and padding are integers, while its documentation (and torch) allows one-element tuples; dilation and kernel size may be tuples.
* **C92, __init__.py:138-140.** `get_cryptensor_type` returns the first registered class the tensor is an *instance* of, so a registered subclass of `MPCTensor` is reported as "mpc" and `cat`/`stack` do not notice mixtures. `rand` and `randn` raise `KeyError` for an unknown type where `cryptensor` raises `ValueError`.
* C94: in the SVM example a score of exactly zero counts as half an error in plaintext (`torch.sign(0) = 0`) and as class 1 in the encrypted run (`sign(0) = 1`), so the two runs diverge from there: one epoch from zero weights on one example takes the plaintext weight to 1/4 and leaves the encrypted one at 0.
* C95: the gradient of a mean multiplies by the encoded `1/N`, which is 0 when more than 2^k elements are averaged (65536 by default): every gradient is then 0 and training never changes the weights. The forward mean divides by the integer N and does not have this problem.
* C96: on a plaintext model `to(device)` stores `param.to(device)`, a non-leaf tensor, as parameter: gradients are not stored in it and optimizers made before keep the old one. On an encrypted model `to(torch.float32)` casts the shares, which destroys the values with high probability. `set_parameter_from_shares` drops `requires_grad`, and its documented argument `src` raises a TypeError. `to` moves the parameters of an encrypted model but not their gradients.
* **C103, nn/tensorboard.py:36, 54.** `graph` looks modules up in `named_modules()`, which lists an object only once: a model that uses one `ReLU()` object twice raises KeyError. So do `Sequential(OrderedDict(...))` (operands stored as a text) and graphs with modules that have several results.
* **C104, examples/meters.py:49-55.** `AccuracyMeter.value()` stacks the batches along dimension 0 and then takes `correct[:k]`, the first k batches instead of the first k ranks. `mpc_imagenet`, which adds one sample at a time with k = 1, so reports 100/n or 0 by the first of its n samples alone. Batches of different sizes make `torch.stack` raise.
* C55: a dimension 1 broadcast to 0 keeps its size 0. C58: numpy arrays lose their fractions.

Found while reading, not modelled: `raise ("string")` in `baseOT.py` raises TypeError; `_max_pool2d_backward` checks the wrong variable for integer dilation and mixes up the axes in `ceil_mode`;
`CUDALongTensor.__rpow__` is `__pow__`; `Sequential(OrderedDict)` uses the keys' characters.

## Axioms of the theorems in the manifest

* does not depend on any axioms: `C41_lexical`, `C41_restored_partial`, `Export.C81_always_a_graph`, `Export.C81_second_export_wrong`, `Export.C81_stale_buffer_wrong`, `Layers.C91_conv1d_tuple_wrong`, `Nn.C46_encrypt_flagged`, `Recording.C68_unrecorded_functions`, `SplitSession.C82_loss_backward_wrong`.
* [propext]: `C04_other_parties_view_independent`, `C07_nearest_division_not_always`, `C40_none_wrong`, `C40_threads_wrong`, `C41_inside_partial`, `C41_lexical_unique`, `C42_detach_wrong`, `C42_non_differentiable_wrong`, `C42_second_backward_wrong`, `Calls.C87_calls_wrong`, `Calls.table_names`, `Export.C81_encrypted_raises`, `Export.C81_training_mode`, `GradBuffers.C69_caller_wrong`, `GradBuffers.C69_clear_wrong`, `GradBuffers.C69_shared_wrong`, `Graph.C45_same_input_twice_wrong`, `Nn.C46_encrypt_reveals_wrong`, `Onnx.C66_flatten_default`, `Onnx.C66_gather_default_wrong`, `Onnx.C66_pad_value_wrong`, `Onnx.C66_transpose_default_wrong`, `OnnxGraph.C70_identity_wrong`, `OnnxGraph.C70_initializer_input_wrong`, `OnnxGraph.C70_repeated_input_wrong`, `OnnxGraph.C70_unsupported_raises`, `Registry.C92_join_wrong`, `Registry.C92_round_trip_wrong`, `Serial.C39_tensor_partial`, `Session.C75_foreign_group_wrong`, `ShapeGrad.C62_cat_plain_wrong`, `ShapeGrad.C62_clone`, `ShapeGrad.C62_sum_dims_wrong`.
* [propext, Quot.sound]: `C17_replicated_truncate_refuses`, `C32_scales_restored`, `C35_tuples_partial`, `C40_restored_partial`, `C41_threads_serial`, `CudaT.C90_torch_function`, `CudaT.C90_wrapped`, `CudaT.C90_wrong`, `GradBuffers.C69_accumulate_partial`, `GradBuffers.C69_computed_first`, `GradBuffers.C69_power_wrong`, `Graph.C45_second_output_wrong`, `Graph.C45_sound`, `Graph.C45_unique`, `Layers.C91_conv_refused`, `Onnx.C66_constantOfShape_wrong`, `Onnx.C66_equal_wrong`, `Onnx.C66_pool_dilation_wrong`, `Onnx.C66_pool_kernel_wrong`, `Onnx.C66_pool_no_pads`, `Onnx.C66_pool_pads_wrong`, `Onnx.C66_pool_partial`, `Onnx.C66_pool_strides_raises`, `OnnxGraph.C70_accepts`, `OnnxGraph.C70_second_output_wrong`, `Operators.C88_augmented_new`, `Operators.C88_plain_left_wrong`, `Operators.C88_pow_wrong`, `Operators.C88_rtruediv_wrong`, `Recording.C68_alignment_wrong`, `Recording.C68_detach_wrong`, `Recording.C68_dropout_wrong`, `Recording.C68_in_place_rejected`, `Recording.C68_in_place_wrong`, `Recording.C68_index_add_wrong`, `Recording.C68_keyword_wrong`, `Recording.C68_native_wrong`, `Recording.C68_no_exception`, `Recording.C68_own_target_wrong`, `Recording.C68_prod_wrong`, `Recording.C68_set_item_wrong`, `Registry.C92_join`, `Serial.C38_only`, `Serial.C38_order_partial`, `Serial.C38_order_wrong`, `Serial.C38_permanent`, `Serial.C38_rejected`, `Serial.C38_stream`, `Serial.C39_buffers_wrong`, `Serial.C39_module_partial`, `Session.C75_beside_threads`, `Session.C75_threads`, `Session.C75_threads_again`, `Session.C75_threads_resize_wrong`, `Session.C75_threads_uninit_wrong`, `ShapeGrad.C62_narrow_negative_dim_wrong`, `SplitSession.C82_cache_off_wrong`, `SplitSession.C82_cached_batch_wrong`, `SplitSession.C82_forward_without_cache`, `SplitSession.C82_other_batch_wrong`, `SplitSession.C82_same_sizes_partial`, `Stats.C51_threads_wrong`, `Threads.C37_broadcast_gather_wrong`, `Threads.C37_broadcast_wrong`, `Threads.C37_sync_seeds_wrong`.
* [propext, Classical.choice, Quot.sound]: all the others (707 theorems).

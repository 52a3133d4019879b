{"id": "C01", "title": "Encrypting a tensor and revealing it gives back the encoded tensor", "statement": "For every number of parties, every source rank, every tensor of 64-bit integers, and every history of earlier encryptions that the parties performed in lock-step, the sum modulo 2^64 of the shares that crypten.cryptensor(x, src=s, precision=0) leaves at the parties equals x, and get_plain_text / reveal returns x at every party (and at exactly dst when dst is given).", "quantifier": "all world sizes >= 1, all src, all tensors (any index set), all PRNG output functions, all exchanged seeds, all histories of earlier zero-share requests of any shapes", "why_tests_cant": "The zero-shares depend on the seeds, on the PRNG and on the whole history of earlier draws; a test sees one seed and a short history.", "anchors": ["crypten/mpc/primitives/arithmetic.py: ArithmeticSharedTensor.__init__, PRZS, reveal, get_plain_text", "crypten/__init__.py: _sync_seeds"]}
{"id": "C02", "title": "Zero-shares of all parties cancel for every request history", "statement": "After seed synchronisation, at every point of every history of PRZS requests (arithmetic and binary, any shapes, issued identically by all parties) the generator a party uses towards its successor is in the same state as the generator its successor uses towards its predecessor, so arithmetic PRZS sums to 0 and binary PRZS XORs to 0.", "quantifier": "all world sizes >= 1 (including 1 and 2 where neighbours coincide), all seeds, all interleavings of arithmetic/binary requests, all sizes", "why_tests_cant": "The statement is an invariant over unbounded histories of a ring of PRNGs.", "anchors": ["crypten/__init__.py: _sync_seeds, _setup_prng", "crypten/mpc/primitives/arithmetic.py: PRZS", "crypten/mpc/primitives/binary.py: PRZS", "crypten/common/rng.py: generate_random_ring_element, generate_kbit_random_tensor"]}
{"id": "C03", "title": "Binary (XOR) sharing round-trips", "statement": "For every number of parties, source rank, bit pattern and history, the XOR of the shares of a BinarySharedTensor equals the shared 64-bit pattern, reveal returns it, and XOR with a public value, negation, and shifts act on the revealed value exactly as the plaintext 64-bit operation.", "quantifier": "all world sizes, sources, 64-bit values, shift amounts, generator states", "why_tests_cant": "Quantifies over all 64-bit patterns, all party counts and all generator states.", "anchors": ["crypten/mpc/primitives/binary.py: BinarySharedTensor.__init__, __ixor__, __invert__, lshift, rshift, reveal"]}
{"id": "C04", "title": "Any coalition missing one party learns nothing from the shares", "statement": "If the zero-share masks are uniform, then for any two secrets x and x' the shares seen by any set of parties that misses at least one party are identically distributed: the number of mask assignments producing a given view is the same for x and for x'. (For the ring-element sampler actually called, whose range excludes one of the 2^64 ring elements, this must hold too.)", "quantifier": "all world sizes >= 2, all pairs of secrets, all coalitions of size < n, all views", "why_tests_cant": "It is a statement about the whole distribution of views, i.e. a count over (2^64)^n assignments.", "anchors": ["crypten/mpc/primitives/arithmetic.py: PRZS, __init__", "crypten/common/rng.py: generate_random_ring_element"]}
{"id": "C05", "title": "Fixed-point encode/decode round trip is within one unit of the scale", "statement": "Encoding a real x with a scale 2^p truncates scale*x toward zero, so for every x whose scaled value fits in 64 bits the encoded value e satisfies |e - scale*x| < 1 with sign preserved, integers encode exactly as scale*x (in the ring), encoding is monotone and odd, and scale 1 encodes integers as themselves.", "quantifier": "all rationals x with |scale*x| < 2^63, all precisions", "why_tests_cant": "Ranges over all reals/precisions; tests sample.", "anchors": ["crypten/encoder.py: FixedPointEncoder.encode, __init__, __setattr__"]}
{"id": "C06", "title": "Decoding returns exactly encoded/scale for every 64-bit value", "statement": "For every 64-bit two's complement value t and every scale s > 1, FixedPointEncoder.decode, evaluated in exact real arithmetic, returns t/s.", "quantifier": "all 2^64 values t, all scales s > 1", "why_tests_cant": "One value in the 2^64 range is enough to break it; sampling near zero never sees it.", "anchors": ["crypten/encoder.py: FixedPointEncoder.decode, nearest_integer_division"]}
{"id": "C07", "title": "nearest_integer_division rounds to nearest", "statement": "For every integer x and every positive integer d, nearest_integer_division(x, d) is an integer nearest to x/d (error at most 1/2), is exact on multiples of d and commutes with negation.", "quantifier": "all integers x within the 64-bit range where no intermediate wraps, all divisors d >= 1", "why_tests_cant": "All integers and all divisors, including the tie cases.", "anchors": ["crypten/encoder.py: nearest_integer_division"]}
{"id": "C08", "title": "Linear operations on encrypted tensors are exact ring operations on the secrets", "statement": "For every party count and every sharing, adding or subtracting encrypted tensors, adding/subtracting a public tensor, negating, multiplying by a public ring element, index-selecting/permuting/reshaping, summing, cumulative-summing, padding with a public value, index_add/scatter_add and public matrix multiplication change the revealed value exactly as the same operation on the plaintext ring elements; in particular a public operand is counted exactly once no matter how many parties there are.", "quantifier": "all world sizes, all sharings (not only fresh ones), all tensors, all index maps, all public operands", "why_tests_cant": "Correctness for every sharing and every n; an implementation that adds a public value at two parties passes all 1-party tests.", "anchors": ["crypten/mpc/primitives/arithmetic.py: _arithmetic_function, neg_, pad, sum, index_add_, scatter_add_", "crypten/common/functions/regular.py"]}
{"id": "C09", "title": "Beaver products reveal the product of the secrets", "statement": "For every bilinear function used by the library (elementwise mul, matmul, conv, transposed conv), every party count, every sharing of x and y and every sharing of a correct triple (a, b, f(a,b)), the Beaver protocol's output shares sum to f(x, y).", "quantifier": "all world sizes, all sharings, all triples, all tensor shapes, all bilinear functions", "why_tests_cant": "Universal over shares, triples and shapes.", "anchors": ["crypten/mpc/primitives/beaver.py: __beaver_protocol, mul, matmul, conv1d, conv2d", "crypten/mpc/primitives/arithmetic.py: mul, matmul, conv2d"]}
{"id": "C10", "title": "Beaver square reveals the square", "statement": "For every party count, sharing of x and sharing of a pair (r, r^2), the output of the square protocol sums to x^2 in the ring.", "quantifier": "all world sizes, sharings, pairs", "why_tests_cant": "Universal over shares and randomness.", "anchors": ["crypten/mpc/primitives/beaver.py: square"]}
{"id": "C11", "title": "The active-security check accepts every correct triple and only fails on incorrect ones", "statement": "With mpc.active_security on, an honest run with a valid triple and a valid verification triple never raises; and whenever the check passes for a multiplication triple whose product share is off by an error e, then the scaled error t*e must equal the error of the verification triple, so a random scale t catches a fixed error except for the scales t annihilating it.", "quantifier": "all world sizes, all triples (valid and corrupted), all scales t", "why_tests_cant": "Detection is a statement about all corruptions and all random challenges.", "anchors": ["crypten/mpc/primitives/beaver.py: __beaver_protocol (active security branch)"]}
{"id": "C12", "title": "AND, OR and single-bit B2A protocols are correct on every sharing", "statement": "For every party count and every XOR-sharing of 64-bit words x, y and every sharing of a valid binary triple, AND reveals x & y and OR reveals x | y; and for every XOR-sharing of a bit b and every valid pair (rA, rB) of shares of one random bit, B2A_single_bit reveals the ring element b.", "quantifier": "all world sizes, sharings, words, triples", "why_tests_cant": "Universal over sharings and randomness.", "anchors": ["crypten/mpc/primitives/beaver.py: AND, B2A_single_bit", "crypten/mpc/primitives/binary.py: __iand__, __ior__, __or__"]}
{"id": "C13", "title": "Openings made by the Beaver protocols leak nothing", "statement": "For fixed inputs, the public values epsilon and delta opened by the Beaver product (arithmetic and binary) and by the square and B2A protocols are in bijection with the triple's random components, so they are uniform and identically distributed for every choice of inputs.", "quantifier": "all pairs of inputs, all opened values", "why_tests_cant": "A statement about the distribution over all masks.", "anchors": ["crypten/mpc/primitives/beaver.py: __beaver_protocol, square, AND, B2A_single_bit"]}
{"id": "C14", "title": "Two-party truncation is off by at most one, except on a negligible set of shares", "statement": "With two parties, dividing an encrypted x by a public positive integer y by local division of the shares reveals a value within 1 of x/y truncated, for every first share except at most |x|+1 of the 2^64 possible ones.", "quantifier": "all secrets |x| < 2^63, all divisors 2 <= y < 2^63, all 2^64 splittings of x", "why_tests_cant": "The failing shares are 1 in 2^40: tests do not see them, and a bound on their number needs counting over 2^64 values.", "anchors": ["crypten/mpc/primitives/arithmetic.py: div_ (world_size <= 2 branch)"]}
{"id": "C15", "title": "Wrap-corrected truncation with three or more parties is off by a bounded amount", "statement": "With any number of parties, the protocol truncation (x.div_ with more than two parties under Beaver) reveals x/y with error at most n + (error of 4*(2^62//y) per wrap) whenever the masked sum did not wrap, and is off by a multiple of that plus 2^64/y otherwise.", "quantifier": "all world sizes, sharings, divisors, correlated randomness (r, theta_r)", "why_tests_cant": "Universal over sharings and randomness.", "anchors": ["crypten/mpc/primitives/beaver.py: wraps, truncate", "crypten/mpc/primitives/arithmetic.py: div_"]}
{"id": "C16", "title": "count_wraps counts exactly the overflows of the sum of the shares", "statement": "For every list of 64-bit shares, the wrapped sum plus 2^64 times count_wraps(list) equals the sum over the integers.", "quantifier": "all lists of all lengths of 64-bit integers", "why_tests_cant": "All share lists; the failing case is a single boundary value.", "anchors": ["crypten/common/util.py: count_wraps"]}
{"id": "C17", "title": "Replicated three-party protocol is correct", "statement": "With replicated secret sharing as the protocol, mul / matmul / conv, square, AND and truncate reveal the correct result for every sharing, for every number of parties that the library accepts.", "quantifier": "all accepted world sizes, all sharings, all bilinear functions, all zero-shares", "why_tests_cant": "Universal over sharings and party counts.", "anchors": ["crypten/mpc/primitives/replicated.py: replicate_shares, __replicated_secret_sharing_protocol, square, truncate, AND"]}
{"id": "C18", "title": "The SPK carry circuit adds 64-bit integers", "statement": "For every pair of XOR-shared 64-bit words and every party count, circuit.add reveals the sum modulo 2^64.", "quantifier": "all pairs of 64-bit words, all XOR sharings, all world sizes, all triples", "why_tests_cant": "2^128 input pairs times all sharings.", "anchors": ["crypten/mpc/primitives/circuit.py: __SPK_circuit, add", "crypten/mpc/primitives/binary.py: add"]}
{"id": "C19", "title": "Comparison circuits on binary shares are correct", "statement": "eq and lt, le, gt, ge on XOR-shared words reveal 1 exactly when the relation holds on the signed values (also when their difference overflows), 0 otherwise.", "quantifier": "all pairs of 64-bit words, all sharings, all world sizes", "why_tests_cant": "2^128 input pairs times all sharings.", "anchors": ["crypten/mpc/primitives/circuit.py: get_sign_bit, __P_circuit, eq, lt, le, gt, ge"]}
{"id": "C20", "title": "Converting between arithmetic and binary shares preserves the secret", "statement": "For every party count (including party counts that are not powers of two) and every sharing, A2B reveals the same 64-bit pattern, B2A of all 64 bits reveals the same ring element, B2A with bits=k reveals the value of the low k bits, and A2B followed by B2A is the identity.", "quantifier": "all world sizes, sharings, 64-bit values, bit counts", "why_tests_cant": "Universal; the tree of adders has a different shape for each party count.", "anchors": ["crypten/mpc/primitives/converters.py: _A2B, _B2A, convert", "crypten/mpc/primitives/binary.py: sum"]}
{"id": "C21", "title": "Comparisons of encrypted numbers are correct", "statement": "For encrypted x, y at any common fixed-point precision whose difference does not overflow, lt/le/gt/ge/eq/ne decrypt to exactly 1.0 when the relation holds and to exactly 0.0 otherwise.", "quantifier": "all pairs x, y with |x-y| < 2^63, all precisions, all world sizes, all sharings", "why_tests_cant": "All 2^127 pairs, all precisions; the defaults hide the precision dependence.", "anchors": ["crypten/mpc/mpc.py: _ltz, eq, ne, _eqz_2PC", "crypten/common/functions/logic.py: ge, gt, le, lt, eq, ne", "crypten/mpc/primitives/converters.py: _B2A"]}
{"id": "C22", "title": "Two-party equality is correct for every pair of encrypted values", "statement": "With two parties, eq decrypts to 1 exactly when the two ring elements are equal and ne is its complement, with no overflow side condition.", "quantifier": "all pairs of 64-bit values, all sharings", "why_tests_cant": "2^128 pairs times all sharings.", "anchors": ["crypten/mpc/mpc.py: eq, ne, _eqz_2PC"]}
{"id": "C23", "title": "Selection functions built on comparison are correct", "statement": "sign, abs, relu, hardtanh, where and the one-sided comparisons on encrypted numbers equal the mathematical functions for all values whose comparisons are in range.", "quantifier": "all values in range, all bounds min <= max, all conditions", "why_tests_cant": "All values.", "anchors": ["crypten/common/functions/logic.py: sign, abs, relu, hardtanh, where", "crypten/mpc/primitives/arithmetic.py: where", "crypten/mpc/primitives/binary.py: where"]}
{"id": "C24", "title": "Every max algorithm returns the maximum", "statement": "For every non-empty row of encrypted values of every length, each of the configurable algorithms (pairwise, log_reduction, double_log_reduction, accelerated_cascade) returns the maximum of the row, and min returns the minimum.", "quantifier": "all row lengths >= 1, all values at the configured precision (or unscaled) whose pairwise comparisons are in range, all four algorithms, all numbers of parties", "why_tests_cant": "Loop structure depends on the length; the claim is for all lengths.", "anchors": ["crypten/common/functions/maximum.py: max, min, _max_helper_log_reduction, _max_helper_double_log_reduction, _max_helper_accelerated_cascade, _compute_pairwise_comparisons_for_steps"]}
{"id": "C25", "title": "argmax is one-hot at a maximal position, for every tie pattern and every tie-breaking randomness", "statement": "argmax(one_hot=True) returns a vector with exactly one 1, at a position holding the maximum, whatever ties occur and whatever the tie-breaking random value is; argmax(one_hot=False) returns the index of such a position.", "quantifier": "all rows at the configured precision (or unscaled), tie patterns and random values in [0,1), all four algorithms", "why_tests_cant": "All tie patterns and all random values.", "anchors": ["crypten/common/functions/maximum.py: argmax, _argmax_helper, _one_hot_to_index", "crypten/common/functions/sampling.py: weighted_index", "crypten/mpc/mpc.py: rand"]}
{"id": "C26", "title": "pow raises to the requested power", "statement": "For every integer power p >= 1, x.pow(p) computes x^p.", "quantifier": "all bases and all integer powers", "why_tests_cant": "All powers; tests stop at small ones.", "anchors": ["crypten/common/functions/power.py: pow, pos_pow"]}
{"id": "C27", "title": "polynomial evaluates the polynomial", "statement": "For every non-empty list of coefficients, x.polynomial(coeffs) equals the sum of coeffs[i] * x^(i+1) (in exact arithmetic).", "quantifier": "all bases, all coefficient lists of every length", "why_tests_cant": "The doubling loop's shape depends on the number of coefficients.", "anchors": ["crypten/common/functions/power.py: polynomial"]}
{"id": "C28", "title": "prod multiplies all elements of a dimension", "statement": "For every length, prod(dim) equals the product of all the elements (in exact ring arithmetic).", "quantifier": "all lengths, all values", "why_tests_cant": "Tree shape depends on the length.", "anchors": ["crypten/common/functions/regular.py: prod"]}
{"id": "C29", "title": "mean and var compute the documented statistics", "statement": "mean divides the sum by the number of reduced elements, and var(unbiased=True) divides the summed squared deviations by (count - 1) while var(unbiased=False) divides by count, as in the torch function of the same name.", "quantifier": "all tensors, all values of the unbiased flag", "why_tests_cant": "All inputs.", "anchors": ["crypten/common/functions/regular.py: mean, var"]}
{"id": "C30", "title": "cat and stack preserve the decoded value of every operand", "statement": "Every slice of the result of cat/stack of encrypted tensors decodes to the value that the corresponding operand decodes to.", "quantifier": "all lists of encrypted tensors, including operands of different precision", "why_tests_cant": "All combinations of encodings.", "anchors": ["crypten/mpc/primitives/arithmetic.py: stack", "crypten/common/functions/regular.py: __cat_stack_helper, cat, stack"]}
{"id": "C31", "title": "Out-of-place operations leave their operands unchanged", "statement": "add, sub, mul, div and comparisons never change what any operand (or any other live encrypted tensor) decrypts to, whatever views and shared storages exist.", "quantifier": "all heaps of tensors with arbitrary aliasing (views, clones sharing encoders), all operand encodings", "why_tests_cant": "Aliasing patterns are unbounded.", "anchors": ["crypten/mpc/primitives/arithmetic.py: _arithmetic_function, encode_as_, shallow_copy, clone", "crypten/encoder.py"]}
{"id": "C32", "title": "Encodings are restored after every protocol, even on exceptions", "statement": "Whatever happens inside the block that temporarily forces operands to scale 1, after leaving it (normally or by exception) every tensor has the encoding scale it had before, even if the operands are the same object or share an encoder, provided the block itself does not assign to it.", "quantifier": "all operand lists with arbitrary aliasing, all exits, all nestings", "why_tests_cant": "All aliasing patterns and exits.", "anchors": ["crypten/mpc/primitives/beaver.py: IgnoreEncodings"]}
{"id": "C33", "title": "The trusted third party's generators stay synchronised with the parties' for every request history", "statement": "For every sequence of tuple requests (additive triples of any op, squares, binary triples, wraps, B2A) that all parties issue in the same order, the generators of the third party and of each party remain in equal states and every tuple returned is valid (c = f(a,b), r2 = r^2, c = a AND b, theta_r = number of wraps of r, rA and rB share the same bit).", "quantifier": "all request histories, world sizes, sizes, PRNGs", "why_tests_cant": "An invariant over unbounded histories.", "anchors": ["crypten/mpc/provider/ttp_provider.py: TrustedThirdParty, TTPClient, TTPServer"]}
{"id": "C34", "title": "Tuples from the trusted first party are valid", "statement": "Every tuple the trusted-first-party provider returns is a correct sharing of a correct correlation, for every request, party count and generator state.", "quantifier": "all requests, world sizes, generator states", "why_tests_cant": "Universal over randomness.", "anchors": ["crypten/mpc/provider/tfp_provider.py: TrustedFirstParty"]}
{"id": "C35", "title": "The tuple cache never changes results and never runs into an error", "statement": "With tracing, filling and consuming the tuple cache in any order, every request returns a tuple of the requested kind and arguments, all parties use the same tuple for the same request, no tuple is used twice, and a request that finds no cached tuple falls back to generating one.", "quantifier": "all histories of trace / fill / request / save / load", "why_tests_cant": "Histories are unbounded; tests consume exactly what they filled.", "anchors": ["crypten/mpc/provider/provider.py: TupleProvider.trace, trace_once, fill_cache, __getattribute__, save_cache, load_cache"]}
{"id": "C36", "title": "In-process collectives deliver the right messages under every thread schedule", "statement": "For every number of threads, every program made of all_gather / gather / all_reduce / reduce calls issued in the same order by all ranks, and every interleaving of the threads, each call returns the values contributed to that same call, and no rank ever sees a message of another call.", "quantifier": "all thread counts, programs, payloads, interleavings", "why_tests_cant": "All schedules.", "anchors": ["crypten/communicator/in_process_communicator.py: all_gather, gather, all_reduce, reduce, send, recv"]}
{"id": "C37", "title": "In-process broadcast and point-to-point delivery are correct under every schedule", "statement": "For every interleaving, a sequence of broadcasts (any roots) and matching send/recv pairs delivers each payload to the call it belongs to.", "quantifier": "all thread counts, programs, interleavings", "why_tests_cant": "All schedules.", "anchors": ["crypten/communicator/in_process_communicator.py: broadcast, scatter, send, recv", "crypten/__init__.py: _sync_seeds"]}
{"id": "C38", "title": "Deserialisation only ever resolves allow-listed classes", "statement": "For every byte stream and every history of register_safe_class calls, the restricted unpickler resolves a global only if it is in the fixed allow-list or was registered before; registration is permanent and order-independent; everything else raises.", "quantifier": "all requested (module, name) pairs, all registration histories", "why_tests_cant": "All attacker-chosen streams.", "anchors": ["crypten/common/serial.py: RestrictedUnpickler.find_class, register_safe_class, safe_load"]}
{"id": "C39", "title": "load_from_party reveals nothing but shapes of the source's model to the other parties", "statement": "In load_from_party, the message the source broadcasts to the other parties depends only on the structure (types, shapes, key names) of the loaded object and not on any tensor value in it.", "quantifier": "all loaded objects (tensors, nested modules with parameters and buffers)", "why_tests_cant": "Non-interference: compares all pairs of objects.", "anchors": ["crypten/__init__.py: load_from_party"]}
{"id": "C40", "title": "Temporary configuration overrides are undone on every exit", "statement": "cfg.temp_override restores every configuration value at exit of the block, however the block exits, for any nesting and whatever assignments the block performs; inside, exactly the overridden keys differ.", "quantifier": "all configurations, override maps, nested blocks, assignments and exceptions", "why_tests_cant": "All nestings and exits.", "anchors": ["crypten/config/config.py: CrypTenConfig.temp_override"]}
{"id": "C41", "title": "Gradient mode is restored by no_grad/enable_grad on every exit", "statement": "After any nesting of no_grad / enable_grad / set_grad_enabled blocks, exited normally or by exception, the global gradient flag is what it was before, and inside the innermost block it is what that block asked for.", "quantifier": "all nestings and exits", "why_tests_cant": "All nestings.", "anchors": ["crypten/cryptensor.py: CrypTensor.no_grad, enable_grad, set_grad_enabled"]}
{"id": "C42", "title": "backward accumulates the sum over all paths into every leaf", "statement": "For every acyclic computation graph, backward from its output adds to each leaf requiring gradient exactly the total derivative (the sum over all paths of the products of local derivatives), each interior node propagating exactly once after all its contributions arrived.", "quantifier": "all DAGs, all local derivatives, all output gradients", "why_tests_cant": "All graphs.", "anchors": ["crypten/cryptensor.py: CrypTensor.backward, _identify_required_grads"]}
{"id": "C43", "title": "Every gradient function is the vector-Jacobian product of its forward function", "statement": "For each differentiable primitive, the backward function computes the transpose of the derivative of the forward function at the saved point.", "quantifier": "all inputs and output gradients", "why_tests_cant": "All inputs; numerical gradient tests sample.", "anchors": ["crypten/gradients.py: AutogradAdd, AutogradMul, AutogradSum, AutogradPow, AutogradTake, AutogradPosPow, AutogradPolynomial, _inverse_broadcast"]}
{"id": "C44", "title": "SGD follows the documented update for every history", "statement": "For every sequence of gradients, the parameters after k optimizer steps are those of SGD with momentum, dampening, weight decay and Nesterov momentum as documented, gradients are not modified by the step, and entries over the threshold are zeroed.", "quantifier": "all gradient histories, all hyper-parameters accepted by the constructor", "why_tests_cant": "Unbounded histories.", "anchors": ["crypten/optim/sgd.py: SGD.step", "crypten/optim/optimizer.py"]}
{"id": "C45", "title": "A graph model computes the composition of its modules for every insertion order", "statement": "nn.Graph.forward on an acyclic graph whose nodes are all reachable returns the values obtained by recursively evaluating the named outputs, independent of the order in which modules were added and of the intermediate clean-up of values.", "quantifier": "all acyclic graphs, all insertion orders, all modules, any number of outputs", "why_tests_cant": "All graphs and orders.", "anchors": ["crypten/nn/module.py: Graph.forward, Graph.add_module"]}
{"id": "C46", "title": "Encrypting and decrypting a model preserves and covers all its state", "statement": "model.encrypt() turns every parameter and tensor buffer of the model and of all its descendants into an encrypted tensor of the same value and never reveals anything; decrypt() is its inverse; state_dict followed by load_state_dict restores parameters and buffers; strict loading rejects any mismatch.", "quantifier": "all module trees, all states", "why_tests_cant": "All trees.", "anchors": ["crypten/nn/module.py: Module.encrypt, decrypt, state_dict, load_state_dict, named_parameters"]}
{"id": "C47", "title": "Big-integer arithmetic on the GPU through floating-point blocks is exact", "statement": "matmul, conv and avg_pool2d on CUDALongTensor equal the 64-bit integer operation modulo 2^64, for every size the code accepts.", "quantifier": "all operand values, all sizes", "why_tests_cant": "Exactness depends on a bound over all summation lengths.", "anchors": ["crypten/cuda/cuda_tensor.py: __encode_as_fp64, __decode_as_int64, __patched_conv_ops, matmul"]}
{"id": "C48", "title": "Max-pooling ignores padding", "statement": "max_pool2d on encrypted input returns the maximum of the real (unpadded) entries of each window, for every padding, kernel, stride and number of parties, and its output shape is the torch one.", "quantifier": "all inputs, window geometries, party counts", "why_tests_cant": "All values and geometries.", "anchors": ["crypten/common/functions/pooling.py: max_pool2d, _pool2d_reshape, _pooling_output_shape"]}
{"id": "C49", "title": "Oblivious transfer delivers exactly the chosen message", "statement": "For every pair of messages and every choice bits, BaseOT delivers the chosen message to the receiver, for any messages the API accepts; the receiver's message is independent of the choice, and the pads of the unchosen messages are computed from a different group element.", "quantifier": "all message lists, choice lists, random exponents", "why_tests_cant": "Universal over randomness and messages.", "anchors": ["crypten/mpc/primitives/ot/baseOT.py: BaseOT.send, BaseOT.receive"]}
{"id": "C50", "title": "Randomised response flips each label with the configured probability and yields labels", "statement": "DPSplitModel's randomised response turns every 0/1 label t into t XOR m for the sampled flip bit m, both for plaintext and for encrypted labels; and gradient noise is added whenever a noise source and a non-zero magnitude are configured, whichever rank is the source.", "quantifier": "all labels, all flip masks, all source ranks", "why_tests_cant": "All masks and ranks.", "anchors": ["crypten/nn/privacy/dp_split.py: _process_targets, _add_dp_if_necessary"]}
{"id": "C51", "title": "Communication statistics count each call once", "statement": "With verbose communication logging, the byte and round counters after any sequence of calls are the sums of the per-call costs and reset returns them to zero; with logging off they do not change.", "quantifier": "all sequences of communication calls and resets", "why_tests_cant": "Unbounded sequences.", "anchors": ["crypten/communicator/communicator.py: _logging, Communicator.reset_communication_stats"]}
{"id": "C52", "title": "Encrypted random numbers are uniform in [0,1), and sampling with them has the documented probabilities", "statement": "MPCTensor.rand yields encrypted values that decode into [0,1), uniformly over the multiples of 2^-p, whatever any proper subset of parties contributes; bernoulli compares the probability with that number; weighted_index returns a one-hot vector at an index of positive weight, chosen with probability proportional to the weight up to one part in 2^p; for fixed-point weights the chosen index is that of a number within n units in the last place of the exact one; weighted_sample returns the weight at the index that it returns.", "quantifier": "all contributions of the parties, all precisions from 1 to 61 bits, all lists of integer and of fixed-point weights", "why_tests_cant": "Distributional claim.", "anchors": ["crypten/mpc/mpc.py: rand", "crypten/mpc/primitives/binary.py: rand", "crypten/common/functions/sampling.py: bernoulli, weighted_index, weighted_sample"]}
{"id": "C53", "title": "Iterative approximations converge as documented", "statement": "In exact arithmetic: exp computes (1 + x/2^d)^(2^d); the reciprocal's Newton iteration has error (1 - x*y0)^(2^k); sign handling makes reciprocal odd; the inverse square root's Newton step is the documented one with error bounds; the complex exponential's repeated squaring computes (1 + i x/2^d)^(2^d) real and imaginary parts; log's Householder iteration fixes ln x; Chebyshev polynomials follow their recurrence; the Chebyshev series of tanh takes its values at the points it is computed from and approximates tanh on [-1, 1] with an error that falls geometrically with the number of terms.", "quantifier": "all inputs, all iteration counts", "why_tests_cant": "All inputs and iteration counts.", "anchors": ["crypten/common/functions/approximations.py: exp, reciprocal, inv_sqrt, _eix, log, _chebyshev_polynomials, sigmoid, tanh", "crypten/common/util.py: chebyshev_series"]}
{"id": "C54", "title": "Dropout keeps or drops whole entries and preserves the expectation", "statement": "In training, each entry (each channel for feature dropout) is either multiplied by 1/(1-p) or set to zero, the gradient uses the same mask, in evaluation mode the input is unchanged; the mask is the same at all parties.", "quantifier": "all inputs, masks, p in [0,1)", "why_tests_cant": "All masks.", "anchors": ["crypten/common/functions/dropout.py", "crypten/gradients.py: AutogradDropout"]}
{"id": "C55", "title": "Autograd reductions invert broadcasting", "statement": "For every pair of broadcast-compatible shapes, _inverse_broadcast of a gradient sums exactly over the entries that the broadcast duplicated, so that it is the adjoint of broadcasting.", "quantifier": "all broadcast-compatible shapes of all ranks", "why_tests_cant": "All shapes.", "anchors": ["crypten/gradients.py: _inverse_broadcast, AutogradAdd, AutogradMul"]}
{"id": "C56", "title": "Operands of different precision are aligned before addition", "statement": "Adding or multiplying encrypted tensors (or an encrypted and a public tensor) with different fixed-point scales yields a tensor whose decoded value is the sum / product of the decoded operands up to the documented truncation error, and whose scale is the larger one (sum) or the operand scale (product).", "quantifier": "all pairs of scales, all values, all world sizes", "why_tests_cant": "All pairs of scales.", "anchors": ["crypten/mpc/primitives/arithmetic.py: _arithmetic_function, encode_as_, mul, div"]}
{"id": "C57", "title": "Zero-shares also cancel when the parties are threads of one process", "statement": "When the parties are threads started through init_thread, the zero-shares all parties draw for one request still sum to zero, so that encrypting and revealing is correct in that mode too.", "quantifier": "all thread counts, all generator functions and seeds, all schedules of the draws", "why_tests_cant": "Threads of one process share module globals; whether their generator draws cancel depends on the schedule and on the generator, which a single test run does not explore.", "anchors": ["crypten/__init__.py: generators, init_thread, _setup_prng, _sync_seeds", "crypten/mpc/primitives/arithmetic.py: PRZS"]}
{"id": "C58", "title": "A numpy array is encoded like the tensor with the same numbers", "statement": "Encrypting a numpy array and revealing it gives the same values as encrypting the torch tensor (or list) holding the same numbers.", "quantifier": "all arrays, all values, all precisions", "why_tests_cant": "A test on arrays of whole numbers passes; the claim is about every number.", "anchors": ["crypten/encoder.py: FixedPointEncoder.encode"]}
{"id": "C59", "title": "Selection between binary-shared tensors", "statement": "where(cond, x, y) on XOR-shared tensors reveals x where bit 0 of the condition is 1 and y where it is 0, for encrypted conditions, in every bit position.", "quantifier": "all words, all sharings of condition and operands, all world sizes, all provider randomness", "why_tests_cant": "The condition bit is spread over the word on each share separately; correctness for all sharings is an algebraic fact.", "anchors": ["crypten/mpc/primitives/binary.py: where"]}
{"id": "C60", "title": "update_parameters moves parameters along their gradients and leaves the gradients alone", "statement": "Module.update_parameters(lr, threshold) replaces every parameter p with gradient g by p - lr*g (entries of g not below the threshold dropped), and changes no gradient, so that it can be called any number of times.", "quantifier": "all models, gradients (also shared gradient objects), rates, thresholds or none", "why_tests_cant": "In-place effects on gradients only show for some aliasing patterns and call histories.", "anchors": ["crypten/nn/module.py: Module.update_parameters"]}
{"id": "C61", "title": "Split training with private labels follows the gradient of the documented loss", "statement": "For every batch, labels, logits and accepted rappor_prob, the gradient with respect to the logits that DPSplitModel computes under encryption is the gradient of the (RAPPOR-corrected) mean cross-entropy, the loss it reports is that loss, and without noise back-propagation of the recovered gradient gives every parameter its true gradient.", "quantifier": "all logits, labels, rappor probabilities in [0,1], batch sizes and last-layer inputs", "why_tests_cant": "Ranges over all real inputs and all shapes of the batch; the tests only use batches smaller than the last layer.", "anchors": ["crypten/nn/privacy/dp_split.py: compute_loss, _compute_last_layer_grad, _solve_dLdZ, backward", "crypten/gradients.py: AutogradRAPPORLoss"]}
{"id": "C62", "title": "Gradients of reshaping, slicing, joining and summing operations", "statement": "Back-propagating through transpose, t, permute, flip, clone, view, reshape, flatten, narrow, index_select, gather, roll, squeeze, unsqueeze, pad, sum, cat and stack succeeds for every call the forward operation accepts (also with negative dimensions), and gives the input a gradient of its own shape that pairs with every change of the input as the output gradient pairs with the change of the output.", "quantifier": "all tensors of all ranks and sizes, all argument values accepted by the forward call, all output gradients", "why_tests_cant": "Ranks, sizes, dimensions and negative arguments are unbounded; the tests compare a few shapes, mostly with non-negative dimensions.", "anchors": ["crypten/gradients.py: AutogradT, AutogradTranspose, AutogradPermute, AutogradFlip, AutogradClone, AutogradCat, AutogradStack, AutogradView, AutogradReshape, AutogradFlatten, AutogradNarrow, AutogradIndexSelect, AutogradGather, AutogradRoll, AutogradSqueeze, AutogradUnsqueeze, AutogradSum, AutogradPad", "crypten/__init__.py: cat"]}
{"id": "C63", "title": "Gradients of convolutions and average pooling", "statement": "For every accepted call of conv1d, conv2d and avg_pool2d (any batch size, channels, groups, kernel size, stride, padding, dilation), back-propagation succeeds and gives the input and the kernel gradients of their own shapes which are the transposes of the dependence of the output on that argument.", "quantifier": "all input, kernel and gradient values, all shapes, strides, paddings, dilations and groups the forward call accepts", "why_tests_cant": "The reshaping and the output padding depend on divisibility of sizes by strides in every dimension; only finitely many combinations can be run.", "anchors": ["crypten/gradients.py: AutogradConv1D, AutogradConv2D, AutogradAvgPool2D", "crypten/common/util.py: _grad_input_padding", "crypten/mpc/primitives/arithmetic.py: avg_pool2d"]}
{"id": "C64", "title": "Gradient of max-pooling", "statement": "For every accepted max_pool2d call on an input whose windows have a unique largest entry, back-propagation succeeds and gives each entry the sum of the gradients of the windows in which it is the largest, which is the derivative of the pooling.", "quantifier": "all inputs, gradients, shapes, kernel sizes, strides, paddings, dilations and both rounding modes", "why_tests_cant": "The sizes of the temporary tensor depend on kernel, stride, padding and input size on both axes; overlapping windows have to accumulate.", "anchors": ["crypten/gradients.py: AutogradMaxPool2D", "crypten/common/functions/pooling.py: _max_pool2d_backward"]}
{"id": "C65", "title": "Adaptive pooling equals torch's definition for every size", "statement": "AdaptiveAvgPool2d, AdaptiveMaxPool2d and the tensor functions adaptive_avg_pool2d, adaptive_max_pool2d return an output of the requested size whose entry (i, j) is the mean (maximum) of the rows floor(i H / h) to ceil((i+1) H / h) and the corresponding columns, for every input and output size and every documented form of the size argument.", "quantifier": "all inputs, all input and output sizes, integers, pairs and None", "why_tests_cant": "The windows overlap and have different sizes depending on the remainders; the start and end are computed in floating point.", "anchors": ["crypten/common/functions/pooling.py: adaptive_avg_pool2d, adaptive_max_pool2d, _adaptive_pool2d_helper", "crypten/nn/module.py: AdaptiveAvgPool2d, AdaptiveMaxPool2d"]}
{"id": "C66", "title": "Layers imported from ONNX compute what the operator prescribes", "statement": "For every ONNX node that crypten.nn.from_onnx accepts (Slice, Expand, Flatten, Reshape, Squeeze, Unsqueeze, Transpose, ReduceSum, Gather, Pad, Conv, MaxPool, AveragePool, GlobalAveragePool, Clip, Gemm, Add, Sub, Mul, Div, Equal, Where, Pow, Cast, Range, ConstantOfShape, Shape, Concat), the imported layer returns the tensor that the ONNX specification prescribes for the node's attributes, defaults included, or raises.", "quantifier": "all attributes, all shapes and entries of the inputs", "why_tests_cant": "The attributes range over all lists of integers, negative axes, missing attributes and asymmetric paddings for tensors of every rank; tests fix a few exported models.", "anchors": ["crypten/nn/module.py: Slice, Expand, Flatten, Reshape, Squeeze, Unsqueeze, Transpose, Sum, Gather, _ConstantPad, Conv, _Pool2d, GlobalAveragePool, Hardtanh, Gemm, Add, Sub, Mul, Div, Equal, Where, Pow, Cast, Range, ConstantOfShape, Shape, Concat (from_onnx, forward)", "crypten/nn/onnx_converter.py: _get_operator_class, ONNX_TO_CRYPTEN"]}
{"id": "C67", "title": "Batch normalisation layers use their current state", "statement": "After every history of train(), eval(), encrypt(), decrypt(), set_parameter, set_buffer and forward calls, a batch normalisation layer in evaluation mode returns weight * (x - running_mean) / sqrt(running_var + eps) + bias with the values its parameters and buffers have now; in training mode it normalises with the statistics of the batch and moves its running statistics by the momentum as torch does.", "quantifier": "all histories of calls, all parameter values, inputs, numbers of channels, positions and parties", "why_tests_cant": "eval() caches a value derived from a buffer; whether it is current depends on the order of all later calls and on which party holds which copy.", "anchors": ["crypten/nn/module.py: _BatchNorm, BatchNormalization, Module.train, Module.encrypt, Module.set_buffer", "crypten/gradients.py: AutogradBatchNorm.forward"]}
{"id": "C68", "title": "Gradients of a whole program are the derivatives of its data flow", "statement": "Run any program of operations on encrypted tensors, with gradient recording switched on and off at will, and call backward on a result. Every leaf that requires a gradient then holds the derivative of the result with respect to it, as given by what was computed from what; a result that does not require a gradient does not depend on any such leaf; an operation for which this cannot be guaranteed raises an exception.", "quantifier": "all programs of tensor operations (calls with positional and keyword arguments, lists of tensors, several outputs, in-place operations, assignments to an index, detach, no_grad), all local derivatives, all output gradients", "why_tests_cant": "All programs; tests look at single operations called in the usual way.", "anchors": ["crypten/cryptensor.py: CrypTensor.__getattribute__, _get_autograd_forward_function, _find_all_cryptensors, detach", "crypten/common/functions/regular.py", "crypten/gradients.py: AutogradContext, AutogradDropout"]}
{"id": "C69", "title": "Accumulation of gradients writes only to the gradients", "statement": "After any sequence of backward passes and zero_grad calls, the gradient of each leaf is the sum of the gradients that have reached it since it was last reset, and the tensors that the caller passed as gradient inputs keep their values.", "quantifier": "all sequences of backward passes with gradient inputs of the caller's choice, of resets and of in-place clearing, on any number of leaves", "why_tests_cant": "All histories; tests call backward once or twice with a tensor made for the purpose.", "anchors": ["crypten/cryptensor.py: CrypTensor.backward, __getattribute__ (in-place functions)", "crypten/optim/optimizer.py: Optimizer.zero_grad", "crypten/nn/module.py: Module.zero_grad", "crypten/mpc/primitives/arithmetic.py: ArithmeticSharedTensor.copy_"]}
{"id": "C70", "title": "A model imported from ONNX computes what the graph means", "statement": "If an ONNX graph, executed as the ONNX specification says, gives a value for the arguments, then from_onnx converts it and the model returns this value; operators that are not supported raise an exception instead of being left out.", "quantifier": "all ONNX graphs (inputs, parameters, nodes in any topological order, any wiring), all arguments, all operators whose single layers are converted correctly", "why_tests_cant": "All graphs; tests import a handful of feed-forward networks.", "anchors": ["crypten/nn/onnx_converter.py: _to_crypten, _get_input_output_names, _get_model_or_module", "crypten/nn/module.py: Graph.add_module, Graph.forward, Parameter"]}
{"id": "C71", "title": "Launching parties as processes returns their values in the order of ranks", "statement": "A function decorated with run_multiprocess returns the list of the values that the parties returned, in the order of their ranks, or None if a party raised; it always returns once the parties are done.", "quantifier": "all numbers of parties, all return values and sizes, all failures, all schedules of the processes, their writer threads and pieces of writes", "why_tests_cant": "All schedules and all sizes of return values; tests return small values or nothing.", "anchors": ["crypten/mpc/context.py: run_multiprocess, _launch", "crypten/mpc/provider/ttp_provider.py: TTPServer"]}
{"id": "C72", "title": "A whole program on encrypted tensors reveals its exact result up to a computable error", "statement": "A program that encrypts the parties' data, computes with +, -, negation, products with integers, public and encrypted tensors (mul, matmul, conv), square, division by integers, sums, relu, max and re-arranging, and reveals the result, obtains what the same text means for exact numbers, up to an error computed line by line from the magnitudes, provided nothing overflows and no truncation is spoilt by a wrap-around.", "quantifier": "all straight-line programs, all inputs, all numbers of parties, all precisions, all correlated randomness", "why_tests_cant": "All programs and all inputs; tests fix an operation and a tolerance.", "anchors": ["crypten/mpc/primitives/arithmetic.py: _arithmetic_function, div_, square, sum", "crypten/common/functions/logic.py: relu", "crypten/common/functions/maximum.py: max", "crypten/encoder.py: encode, decode"]}
{"id": "C73", "title": "Validation mode changes nothing but rejects wrong results", "statement": "With cfg.debug.validation_mode, a method of an encrypted tensor returns what it returns without, if that agrees with torch's method on the plaintexts up to the tolerance, and raises ValueError otherwise; attributes keep their values.", "quantifier": "all methods, all results, all states of the tensors, all attributes", "why_tests_cant": "All methods and values; the tests call add and matmul out of place.", "anchors": ["crypten/debug/__init__.py: register_validation", "crypten/debug/debug.py: validate_correctness", "crypten/cryptensor.py: __getattribute__", "crypten/mpc/primitives/arithmetic.py: div_"]}
{"id": "C74", "title": "A sequential model computes the composition of its modules however it is built", "statement": "nn.Sequential(f0, f1, ...), nn.Sequential(OrderedDict(...)) and mixtures of both return fn(...f1(f0(x))) for every input.", "quantifier": "all numbers of modules, all modules, all names, all inputs", "why_tests_cant": "All lists of modules and all names; the tests use a few short lists.", "anchors": ["crypten/nn/module.py: Sequential.__init__, Graph.forward"]}
{"id": "C75", "title": "CrypTen can be started, ended and started again", "statement": "For every history of crypten.init(), init_thread() and uninit(): is_initialized() tells whether a session is open, every session has its own communicator, generators and connection to the trusted third party, and uninit() ends it for the caller.", "quantifier": "all histories of calls, all numbers of threads and world sizes, all providers", "why_tests_cant": "All histories; the one test that restarts CrypTen is skipped as flaky.", "anchors": ["crypten/__init__.py: init, init_thread, uninit, is_initialized", "crypten/communicator/__init__.py: get, _init, uninit, is_initialized", "crypten/communicator/distributed_communicator.py: initialize, shutdown, is_initialized", "crypten/communicator/in_process_communicator.py: initialize, shutdown, is_initialized", "crypten/mpc/provider/ttp_provider.py: TTPClient"]}
{"id": "C76", "title": "Parameters keep their identity through training mode, encryption and optimisation", "statement": "For every model built from modules that may share submodules and parameters: parameters() lists every parameter of the model; train() and eval() set the mode of every submodule and nothing else; encrypt() and decrypt() convert every parameter at every depth under its name with its value and requires_grad; a step of SGD made from model.parameters() subtracts lr times the gradient from every parameter, once.", "quantifier": "all acyclic module graphs with any sharing, all values, gradients and modes", "why_tests_cant": "All graphs of modules; tests use trees of two or three layers.", "anchors": ["crypten/nn/module.py: Module.train, Module.named_children, Module.parameters, Module.encrypt, Module._apply", "crypten/optim/sgd.py: SGD.step", "crypten/optim/optimizer.py: Optimizer.add_param_group"]}
{"id": "C77", "title": "What the other parties see says nothing about a party's inputs", "statement": "For every program of encrypted inputs, arithmetic, comparisons and maxima, and for every elementwise function, reduction and comparison, on any number of parties: all parties except one together - with their parts of the dealt tuples, everything that is sent, and their shares of all results - cannot tell two runs apart that differ only in the numbers the remaining party entered. Revealing a result tells them nothing beyond the result.", "quantifier": "all programs, all inputs, all numbers of parties, every party whose inputs are hidden, all configurations", "why_tests_cant": "A statement about the distribution of everything that is sent, for all pairs of inputs; a test sees one transcript.", "anchors": ["crypten/mpc/primitives/beaver.py: mul, square, AND, B2A_single_bit, wraps", "crypten/mpc/primitives/arithmetic.py: reveal, div_", "crypten/mpc/primitives/binary.py: reveal", "crypten/common/functions: all functions", "crypten/mpc/provider/tfp_provider.py: TrustedFirstParty"]}
{"id": "C78", "title": "Attributes of modules have one meaning each; ModuleList and ModuleDict are lists and dictionaries", "statement": "For every history of assignments, deletions and registrations on a module: every name stands for one thing, reads as what was last assigned to it, named_parameters(), named_buffers() and children() list exactly what is registered. A ModuleList behaves as a Python list under every history of append, extend, insert, assignment and deletion, a ModuleDict as a dictionary.", "quantifier": "all histories of calls, all names and values", "why_tests_cant": "All histories; tests make one or two calls.", "anchors": ["crypten/nn/module.py: Module.__getattr__, __setattr__, register_parameter, set_parameter, register_buffer, set_buffer, register_module, add_module", "crypten/nn/module.py: ModuleList, ModuleDict"]}
{"id": "C79", "title": "The loss modules compute the documented losses", "statement": "For predictions and targets of every shape, MSELoss, L1Loss, BCELoss, BCEWithLogitsLoss, CrossEntropyLoss and RAPPORLoss give every party the documented number, whichever of the arguments are encrypted, and refuse arguments whose shapes do not match.", "quantifier": "all losses, shapes, values, numbers of parties, and combinations of plain and encrypted arguments", "why_tests_cant": "All shapes (also batches of one observation), all combinations of encrypted and plain arguments and all parties' plain values.", "anchors": ["crypten/nn/loss.py: _Loss, MSELoss, L1Loss, BCELoss, CrossEntropyLoss, BCEWithLogitsLoss, RAPPORLoss", "crypten/gradients.py: AutogradBinaryCrossEntropy, AutogradBinaryCrossEntropyWithLogits, AutogradRAPPORLoss, AutogradCrossEntropy"]}
{"id": "C80", "title": "How often a program's result is off", "statement": "If the provider splits its tuples at random, a program of encrypted additions, products, squares, divisions, relu and max reveals a result farther from the exact one than the error bound of C72 with a probability of at most the sum, over all entries that are divided or rescaled, of (magnitude of what is divided as a 64-bit integer + 2 * parties) / (2^64 - 1).", "quantifier": "all programs, all inputs within the magnitudes, all numbers of parties, all distributions of tuples whose splits are spread over 2^64 - 1 words given everything handed out before", "why_tests_cant": "The events have probabilities like 10^-8; no test sees them, and no test bounds them for every program.", "anchors": ["crypten/mpc/primitives/arithmetic.py: div_, _arithmetic_function", "crypten/mpc/primitives/beaver.py: __beaver_protocol, square, wraps, truncate", "crypten/mpc/provider/tfp_provider.py: generate_additive_triple, square, wrap_rng", "crypten/common/rng.py: generate_random_ring_element"]}
{"id": "C81", "title": "Back to PyTorch", "statement": "After from_pytorch and any history of encrypting, decrypting, updating, train/eval and exporting, to_pytorch of an unencrypted model returns a PyTorch model with the current values of all parameters and buffers; of an encrypted model it raises. The model given to from_pytorch is never changed, and a model that was returned does not change later.", "quantifier": "all models and initializers, all histories of operations on the CrypTen model, the original and the exported model, all ways in which tensors share memory", "why_tests_cant": "Tests export once right after training; they do not look at buffers, at the original, at memory shared with models exported before, or at arbitrary histories.", "anchors": ["crypten/nn/module.py: Graph.to_pytorch, Module.encrypt, Module.train, Parameter.__init__", "crypten/nn/onnx_converter.py: from_pytorch, _to_crypten, _get_model_or_module"]}
{"id": "C82", "title": "Split training with changing batches", "statement": "In split training all parties make the same calls: forward, compute_loss, backward, train, eval. Every call returns at all parties or raises at all of them, and all parties assume the sizes that the model of the feature source has produced, also when batches have different sizes and caching of sizes is off.", "quantifier": "all sequences of calls, all sizes, all numbers of parties, all changes of the setting cache_pred_size", "why_tests_cant": "The tests make a new model for each single iteration; what goes wrong needs a second iteration with another size, and shows as a hang of some parties.", "anchors": ["crypten/nn/privacy/dp_split.py: forward, _communicate_and_cache, _compute_last_layer_grad, backward, train, training, compute_loss"]}
{"id": "C83", "title": "Output and files of several parties", "statement": "print(..., in_order=True) and log(..., in_order=True) put out the messages of the parties in the order of their ranks, however the parties are scheduled; print(..., dst=...) prints exactly at the given parties. After save, or save_from_party, followed by load, every party reads what was saved for it. Nobody waits for ever.", "quantifier": "all numbers of parties, all schedules, all messages, shares, paths and file systems", "why_tests_cant": "Tests see a few schedules; the property is about every interleaving of the parties, and about who shares a file system.", "anchors": ["crypten/__init__.py: print, log, __multiprocess_print_helper, save, save_from_party, load", "crypten/communicator/distributed_communicator.py: barrier", "crypten/communicator/in_process_communicator.py: barrier"]}
{"id": "C84", "title": "Encrypted normal random numbers", "statement": "crypten.randn returns as many numbers as asked for, and they are independent and have the standard normal distribution, also when the number of elements is odd.", "quantifier": "all sizes, all events (measurable sets of results), all uniform draws", "why_tests_cant": "Tests compare a mean and a variance of one sample with a tolerance; they cannot see the joint distribution nor the tail.", "anchors": ["crypten/common/functions/sampling.py: randn", "crypten/__init__.py: randn"]}
{"id": "C85", "title": "Copies of encrypted tensors and in-place writes", "statement": "clone(), shallow_copy(), views, copy_(), x[index] = y, in-place methods and conversions with to(ptype) act on encrypted tensors as on torch tensors: a clone or a converted tensor has the same numbers and is independent of the original, a shallow copy or view shares its numbers, and a write changes exactly the tensors that share the places written, to the numbers written.", "quantifier": "all programs (histories) of these operations on any number of tensors, all private types, precisions, sharing patterns, shares, parties and conversion tuples", "why_tests_cant": "Tests write to one copy and look at one other tensor; which tensors share storage, encoders and private type depends on the whole history.", "anchors": ["crypten/mpc/mpc.py: MPCTensor.clone, shallow_copy, copy_, to, _to_ptype, from_shares", "crypten/mpc/primitives/arithmetic.py: clone, shallow_copy, copy_, __setitem__, from_shares", "crypten/mpc/primitives/binary.py: clone, shallow_copy, copy_, __setitem__, from_shares", "crypten/mpc/primitives/converters.py: convert", "crypten/common/functions/regular.py: __setitem__"]}
{"id": "C86", "title": "Division of an encrypted tensor", "statement": "x / y reveals the entrywise quotient up to a few units in the last place for every divisor that torch accepts: Python integers and floats, integer and float tensors that broadcast with x, of either sign, and encrypted tensors; a public divisor that is zero is reported.", "quantifier": "all world sizes, sharings, precisions, values, shapes and divisors", "why_tests_cant": "The branch taken depends on the type and on whether all entries are integral, and the error on the size of the divisor; tests divide a few small numbers.", "anchors": ["crypten/mpc/mpc.py: MPCTensor.div", "crypten/mpc/primitives/arithmetic.py: div, div_", "crypten/mpc/primitives/beaver.py: truncate", "crypten/common/functions/regular.py: mean"]}
{"id": "C87", "title": "Recording gradients does not change results", "statement": "Every method of an encrypted tensor that can be recorded for a backward pass accepts the same calls, means the same by them and returns the same values whether or not some operand requires a gradient.", "quantifier": "all recordable methods, all positional and keyword arguments, all world sizes, sharings and values", "why_tests_cant": "Each of the seventy methods exists twice, with its own parameter list and its own body; tests call each with a few arguments in one style.", "anchors": ["crypten/cryptensor.py: CrypTensor.__getattribute__, _get_autograd_forward_function", "crypten/gradients.py: forward functions", "crypten/common/functions/*.py", "crypten/mpc/mpc.py"]}
{"id": "C88", "title": "Operators, comparisons and subscripts mean what they say", "statement": "Every expression a user writes with +, -, *, /, @, **, unary minus, abs, comparisons and subscripts over encrypted tensors, plain tensors and numbers has the value that arithmetic gives it, is encrypted if an encrypted tensor occurs in it, and requires a gradient if it depends differentiably on a tensor that does; +=, -=, *= and /= change the tensor itself, seen through all its names, or raise if it requires a gradient; @= makes a new tensor.", "quantifier": "all expressions, all operands on either side, all bindings of variables to objects, gradients enabled or not", "why_tests_cant": "All expressions: Python looks operators up on the class, bypassing the lookup by name that the tests of the methods go through.", "anchors": ["crypten/cryptensor.py: CrypTensor.__add__ ... __imatmul__, PYTHON_BUILTIN, __torch_function__", "crypten/common/functions/logic.py: __eq__ ... __ne__", "crypten/common/functions/regular.py: __getitem__", "crypten/gradients.py: AutogradGetItem, AutogradRDiv"]}
{"id": "C89", "title": "Programs on binary-shared tensors", "statement": "A program of bitwise operators (in place and out of place, with encrypted, public and integer operands), shifts, additions, comparisons, selections, sums over a dimension, stacking, moving and overwriting of entries on binary-shared tensors reveals the same shapes and words as the same program on plain tensors of 64-bit integers with broadcasting, and raises where that one raises. Construction by any source party gives every party a share of the source's shape, and the shares open to the source's tensor.", "quantifier": "all numbers of parties, all programs, shapes and words, all masks; all arguments of all parties to the constructor", "why_tests_cant": "All programs, shapes and words: the tests run single operators on a few shapes, mostly equal ones, and never mix in-place statements, broadcasting and exceptions.", "anchors": ["crypten/mpc/primitives/binary.py: BinarySharedTensor", "crypten/mpc/primitives/arithmetic.py: ArithmeticSharedTensor.__init__", "crypten/mpc/primitives/beaver.py: AND", "crypten/mpc/primitives/circuit.py"]}
{"id": "C90", "title": "Operators of the GPU integer tensor type", "statement": "A CUDALongTensor can be used in place of the torch tensor of 64-bit integers that it wraps: a program of operators (in place and out of place, also with plain tensors and integers as operands), comparisons, methods, torch functions, aliasing and assignment to parts gives the same shapes and words, with the same variables sharing storage.", "quantifier": "all programs, all mixtures of wrapped, plain and integer operands, all shapes and words", "why_tests_cant": "The tests run on CPUs and, on GPUs, single operators on equal shapes; the class has a method of its own for every operator and direction, and the question is about all combinations of operands, shapes and aliases.", "anchors": ["crypten/cuda/cuda_tensor.py: CUDALongTensor, _add_regular_function, _add_inplace_function, __torch_function__"]}
{"id": "C91", "title": "Layers built directly compute the documented functions", "statement": "crypten.nn.Linear maps every input whose last size is the number of features to x A^T + b, MatMul multiplies by its parameter or multiplies its two inputs, Conv1d and Conv2d compute the cross-correlation of the padded input with the kernel, per group, plus the bias of each output channel, for every documented combination of arguments; anything else is refused. On shares Linear loses less than one unit in the last place per party, for any number of features.", "quantifier": "all shapes and ranks of inputs, all parameters, strides, paddings, dilations, groups (numbers or tuples), with and without bias; on shares all numbers of parties, sharings and tuples", "why_tests_cant": "Tests compare a few layer sizes with torch; the bias must meet the right dimension for every rank and every size, also when sizes coincide or are 1.", "anchors": ["crypten/nn/module.py: Linear, MatMul, Conv1d, Conv2d", "crypten/mpc/primitives/arithmetic.py: _arithmetic_function"]}
{"id": "C92", "title": "Registered types of encrypted tensors", "statement": "After every history of registrations and changes of the default, a type name stands for the class of the first accepted registration; duplicate names and classes that are no CrypTensor are refused and change nothing; the default is the last known name it was set to, and always exists; cryptensor, rand and randn create tensors of the class the name stands for; get_cryptensor_type of such a tensor is that name; cat and stack accept exactly lists of tensors of one type.", "quantifier": "all histories of register_cryptensor and set_default_cryptensor_type, of any length, with any names and classes, including calls that raise", "why_tests_cant": "The registry is global state, so the answer of every call depends on the whole history; a test runs one history.", "anchors": ["crypten/__init__.py: register_cryptensor, set_default_cryptensor_type, get_default_cryptensor_type, get_cryptensor_type, cryptensor, rand, randn, cat, stack", "crypten/cryptensor.py: CrypTensor.register_cryptensor"]}
{"id": "C93", "title": "Models with activation functions are right up to a computable error", "statement": "A computation on encrypted tensors made of inputs, additions, products, matrix products and convolutions, sums, maxima, relu, exp, log, reciprocal, sqrt, inv_sqrt, sigmoid, tanh, cos, sin, softmax and log_softmax, run by two parties with the default configuration, leaves in every tensor the numbers that the same computation on real numbers gives, up to an error that is computed line by line from the computation, provided nothing overflows and each function is used within its range. Classes that lead by more than twice that error are predicted.", "quantifier": "all programs of any length over these operations, all shapes, all inputs, all randomness and all tuples for which no local truncation wraps around", "why_tests_cant": "The error of each function is magnified by the functions after it; a test fixes one network and one input, and compares with a hand-picked tolerance.", "anchors": ["crypten/common/functions/approximations.py: exp, log, reciprocal, inv_sqrt, sqrt, cossin, cos, sin, sigmoid, tanh, softmax, log_softmax", "crypten/common/functions/maximum.py: max", "crypten/mpc/mpc.py: MPCTensor", "crypten/mpc/primitives/arithmetic.py: ArithmeticSharedTensor", "configs/default.yaml"]}
{"id": "C94", "title": "Training a linear classifier on encrypted data follows the plaintext run", "statement": "Training the linear classifier of the SVM example on encrypted features and labels gives, after any number T of epochs, weights and a bias that differ from those of the same run in plaintext by at most (1 + T·c)/2^k, where c depends on the number of parties, the learning rate and the size of the features only: errors grow linearly, not exponentially, with the number of epochs. The accuracies printed in each epoch, and by the evaluation, are right up to (6n+4)/2^k. This needs labels 1 and -1, room in the 64-bit words, and that no score of the plaintext run is so close to zero that the error could change its sign. At a score of exactly zero the two programs differ: torch predicts 0, the encrypted program a class.", "quantifier": "all numbers of parties, features, examples and epochs, all precisions, all data, initial weights and learning rates within the stated room, all randomness and tuples for which no local truncation wraps around", "why_tests_cant": "Each epoch works on the rounded results of all epochs before; a test runs one data set and checks only that the accuracy rises.", "anchors": ["examples/mpc_linear_svm/mpc_linear_svm.py: train_linear_svm, evaluate_linear_svm, run_mpc_linear_svm", "crypten/mpc/mpc.py: MPCTensor", "crypten/common/functions/logic.py: sign", "crypten/common/functions/regular.py: mean"]}
{"id": "C95", "title": "Training a linear model by SGD on encrypted data follows gradient descent", "statement": "Training crypten.nn.Linear with MSELoss and SGD on encrypted features and targets gives, after T passes of forward, backward and step, weights and a bias within sqrt(F+1)·(1/2^k + T·c) (Euclidean) of those of exact gradient descent, where c bounds the rounding of one pass; each loss is right up to a stated error. Errors of different passes add up and are never magnified as long as the learning rate times the mean square norm of the examples (with a 1 for the bias) is at most 1. A batch of more than 2^k examples breaks this: the gradient is then always zero and training changes nothing.", "quantifier": "all numbers of parties, features, examples and passes, all precisions, all data, initial weights and learning rates within the stated room, all randomness and tuples for which no local truncation wraps around", "why_tests_cant": "Whether rounding errors grow over many passes depends on all data, rates and passes; a test runs one data set a few steps and checks only that the loss falls.", "anchors": ["crypten/nn/module.py: Linear", "crypten/nn/loss.py: MSELoss", "crypten/gradients.py: AutogradMatMul, AutogradAdd, AutogradSub, AutogradSquare, AutogradMean", "crypten/cryptensor.py: backward", "crypten/optim/sgd.py: SGD.step"]}
{"id": "C96", "title": "Moving a model between devices keeps its parameters", "statement": "After model.to(device), model.cuda() or model.cpu(), every parameter and buffer of the model and of its submodules at every depth is on that device and holds the same numbers (for an encrypted model, every party holds the same words at the same scale); names, requires_grad and every tensor that is not a part of the model are unchanged, and encrypted parameters remain the same objects, so that optimizers and modules that share them keep working. buffers() lists exactly the buffers of all parts. set_parameter_from_shares replaces one encrypted parameter and nothing else. model.to(dtype) converts the parameters to the type.", "quantifier": "all module trees of any size and depth, with modules and tensors shared in any way, all numbers of parties, values and devices", "why_tests_cant": "The result depends on which objects are shared between modules and on the random shares; tests move single small models and compare one forward pass.", "anchors": ["crypten/nn/module.py: Module.to, Module.cuda, Module.cpu, Module.named_buffers, Module.set_parameter_from_shares", "crypten/mpc/mpc.py: MPCTensor.to, MPCTensor.cuda, MPCTensor.cpu, MPCTensor.from_shares", "crypten/cuda/cuda_tensor.py: CUDALongTensor.to"]}
{"id": "C97", "title": "Training a logistic regression on encrypted data follows gradient descent", "statement": "Two parties with the default configuration train crypten.nn.Linear with BCEWithLogitsLoss (with or without skip_forward) and SGD on encrypted features and labels. After T passes the weights and the bias are within sqrt(F+1)·(1/2^16 + T·c) (Euclidean) of those of gradient descent on real numbers with the true logistic function, where c bounds the rounding of one pass and the error of the approximated sigmoid. The errors of different passes add up and are never magnified as long as the learning rate times the mean square norm of the examples (with a 1 for the bias) is at most 8.", "quantifier": "all numbers of features, examples and passes, all features, labels in [-1,1], initial weights and learning rates within the stated room (logits up to 127), all randomness and tuples for which no local truncation wraps around", "why_tests_cant": "Whether the errors of the approximated sigmoid and of the rounding are magnified over many passes depends on all data, rates and passes; a test trains on one data set and looks at the accuracy.", "anchors": ["crypten/nn/module.py: Linear", "crypten/nn/loss.py: BCEWithLogitsLoss", "crypten/gradients.py: AutogradBinaryCrossEntropyWithLogits, AutogradMatMul, AutogradAdd", "crypten/common/functions/approximations.py: sigmoid", "crypten/cryptensor.py: backward", "crypten/optim/sgd.py: SGD.step"]}
{"id": "C98", "title": "backward() on encrypted tensors computes the derivatives, up to a computed error", "statement": "A user computes with encrypted tensors that require gradients (additions, subtractions and products with broadcasting, negation, products with numbers, matrix products, batched matrix products and convolutions, with encrypted or public second operands, squares, sums, means, reshaping, indexing and padding, concatenation, average pooling, max pooling and maxima over a dimension, ReLU) and calls backward() on a result with one element. Then the decrypted gradient of every entry of every input (encrypted in the program or before it) is within a computed error of the derivative of the result, a function of real numbers, with respect to that entry; the inputs that get a gradient are those on which the result was computed, all others have derivative 0. This holds for every program, also when tensors are used several times.", "quantifier": "all programs made of these calls, all shapes, inputs, numbers of parties and encodings for which no number overflows (in the exact computation with its error) and no operand of ReLU is within its error of 0 and no two largest entries of a window of a maximum are within their errors of each other, all randomness and tuples for which no local truncation wraps around", "why_tests_cant": "Tests compare the gradients of one function, or of a few fixed networks, with PyTorch on random inputs; how errors and repeated uses combine in every program is beyond them.", "anchors": ["crypten/cryptensor.py: CrypTensor.backward, CrypTensor._get_autograd_forward_function", "crypten/gradients.py: AutogradAdd, AutogradSub, AutogradMul, AutogradMatMul, AutogradNeg, AutogradReLU, AutogradSquare, AutogradSum, AutogradMean, AutogradView, AutogradTranspose, AutogradGetItem, AutogradPad, AutogradCat, AutogradAvgPool2D, AutogradMaxPool2D, AutogradMax, _inverse_broadcast", "crypten/mpc/primitives/arithmetic.py: ArithmeticSharedTensor"]}
{"id": "C99", "title": "Training any network on encrypted data follows training on exact numbers", "statement": "Parties encrypt the parameters of a model and its data and repeat zero_grad(), a forward pass, backward() on the result and a step of crypten.optim.SGD (with momentum, dampening, weight decay, Nesterov momentum and gradient threshold as configured). Then after any number of iterations every decrypted parameter, and its velocity, is within a computed error of the parameter after the documented updates with the derivatives of the networks on exact numbers. Parameters on which a result does not depend are left alone in that iteration.", "quantifier": "all networks made of the calls of C98 (a different one in each iteration, if wanted), all shapes, data, hyperparameters, numbers of iterations and parties, and encodings for which no number overflows (in the exact training with its error), no operand of ReLU is within its error of 0, no two largest entries of a window of a maximum are within their errors of each other and no gradient within its error of the threshold; all randomness and tuples for which no local truncation wraps around", "why_tests_cant": "Tests train one small network for a few iterations and compare with a tolerance; how errors accumulate over every network and every number of iterations is beyond them.", "anchors": ["crypten/nn/module.py: Module.encrypt, Module.zero_grad", "crypten/optim/optimizer.py: Optimizer.zero_grad", "crypten/optim/sgd.py: SGD.step", "crypten/cryptensor.py: CrypTensor.backward", "crypten/gradients.py: the Autograd functions of C98"]}
{"id": "C100", "title": "Gradients and training on encrypted data show the other parties nothing", "statement": "Parties compute on encrypted tensors and call backward(), or train a network, a linear or logistic regression or a linear classifier on encrypted data. Then all parties except one together - with their parts of the dealt tuples, everything that is sent, and their shares of all values, gradients, parameters and velocities - cannot tell two runs apart that differ only in the data, labels and parameters of the remaining party. Revealing a gradient or a trained parameter tells them nothing beyond it.", "quantifier": "all networks made of the calls of C98, all hyperparameters, data, numbers of iterations and parties, every party whose inputs are hidden, all configurations; the dealer of the tuples does not belong to the coalition (C77_first_party_wrong)", "why_tests_cant": "A statement about the distribution of everything that is sent during a whole training, for all pairs of inputs; a test sees one transcript.", "anchors": ["crypten/cryptensor.py: CrypTensor.backward", "crypten/gradients.py: the Autograd functions of C98", "crypten/optim/sgd.py: SGD.step", "crypten/nn/module.py: Module.encrypt", "examples/mpc_linear_svm/mpc_linear_svm.py: train_linear_svm", "crypten/mpc/primitives/beaver.py: mul, square, AND, B2A_single_bit, wraps"]}
{"id": "C101", "title": "Split training reveals the gradient of the last layer plus noise, and nothing else", "statement": "In split training (DPSplitModel, layer_estimation) one party holds the model and the features, another the labels, and a third may add noise. The tensor that is revealed to the feature source by loss.backward() is, up to a stated rounding error, the gradient of the mean loss with respect to the weight of the last layer, plus the noise. All parties but one together learn nothing of the labels, of the predictions and layer inputs, or of the noise numbers of the remaining party; the feature source learns nothing beyond the noisy gradient.", "quantifier": "all batch sizes, layer sizes, predictions, labels (plain or encrypted), inputs, noise settings and rappor_prob within stated sizes; all numbers of parties, precisions and roles; all streams of correct tuples in which no truncation wraps around (accuracy), all streams of correct tuples (privacy)", "why_tests_cant": "Accuracy must hold for every batch and every execution; that the view does not depend on the labels is a statement about all pairs of label vectors and the distribution of everything sent.", "anchors": ["crypten/nn/privacy/dp_split.py: DPSplitModel.compute_loss, _process_targets, _compute_last_layer_grad, _add_dp_if_necessary", "crypten/mpc/mpc.py: MPCTensor", "crypten/mpc/primitives/arithmetic.py: ArithmeticSharedTensor.matmul, div_, sub"]}
{"id": "C102", "title": "The CNN example trains by gradient descent on columns of two parties", "statement": "In the example mpc_autograd_cnn two parties hold different columns of the same images; party 0 also has the labels and the initial network (convolution, relu, 2 x 2 max pooling, two linear layers). The encrypted parameters after any number of epochs are within a computed error of the parameters that plain gradient descent on the mean squared error, batch after batch, with update_parameters' threshold, would give; the encrypted loss and outputs of each batch are within computed errors of the loss and outputs of the network at that time. All other parties together learn nothing of the images, labels and parameters of party 0, nor of the images of party 1.", "quantifier": "all numbers of parties, batches, batch sizes, image sizes, columns per party, channels, kernel sizes, hidden units, classes, images, labels, networks, learning rates, thresholds, epochs and methods for the maximum within stated sizes; all streams of correct tuples in which no truncation wraps around (accuracy), all streams of correct tuples (privacy)", "why_tests_cant": "The example has no test of what it computes; that the losses and parameters follow gradient descent for every data set and schedule, and that views do not depend on the other party's data, are statements about all executions.", "anchors": ["examples/mpc_autograd_cnn/mpc_autograd_cnn.py: run_mpc_autograd_cnn, train_encrypted, CNN", "crypten/nn/module.py: Module.update_parameters, Conv.forward, Gemm.forward", "crypten/nn/loss.py: MSELoss.forward", "crypten/gradients.py: AutogradConv2D, AutogradMaxPool2D, AutogradMatMul, AutogradReLU"]}
{"id": "C103", "title": "TensorBoard graphs show the model", "statement": "crypten.nn.tensorboard.graph(model) returns, for every model, one node per input and one node per module of the model; the node of a module carries its class and all parameters below it with their paths and sizes, and has edges exactly from the nodes of its operands; different modules have nodes with different names; a module that is no Graph is shown as one node fed by one input.", "quantifier": "all models: graphs with any number of modules, inputs and edges, modules nested to any depth and shared in any way, all names and classes", "why_tests_cant": "The only test calls the function on one model and checks nothing about the result; sharing, nesting and naming give unboundedly many cases.", "anchors": ["crypten/nn/tensorboard.py: graph", "crypten/nn/module.py: Module.named_modules, Module.named_parameters, Graph.add_module, Sequential"]}
{"id": "C104", "title": "The examples report the accuracy of the predictions", "statement": "The accuracy that the examples report for an encrypted model (accuracy, validate, AverageMeter, AccuracyMeter, run_experiment of mpc_imagenet) is the share of samples whose target is among the k classes with the largest scores, over all samples seen since the last reset, whatever the number and sizes of the batches and however topk breaks ties (samples with equal scores may count or not).", "quantifier": "all outputs, targets, lists of k, splits of the samples into batches, histories of the meters, and all ways to break ties", "why_tests_cant": "The repository has no test of the meters, and a few batches cannot show that the numbers are right for every split of the data and every prediction.", "anchors": ["examples/meters.py: AverageMeter, AccuracyMeter", "examples/mpc_cifar/mpc_cifar.py: accuracy, validate", "examples/tfe_benchmarks/tfe_benchmarks.py: accuracy, validate", "examples/mpc_imagenet/mpc_imagenet.py: run_experiment"]}
